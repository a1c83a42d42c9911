import Verif.Lemmas.HclStructState
import Verif.Check.HclStructDemo
/-!
# Decoding HCL blocks into the fields of a struct
-/
set_option linter.unusedSimpArgs false

namespace Verif.HclS
open Tree (Heap)
open Hcl (Cty Expr)
open Det (Cls CVal KeyTy insertK ltB)

variable {env : Env} {ext : Ext} {root n node cls : Nat} {path : List Bytes} {st st' : St} {fs fs' : Fields}
  {obj : List (Bytes × CVal)} {labels : List Bytes} {body : Body} {f : Fld}

theorem not_null {vals h h' tag} (hord : ∀ p l, (ext.ord p l).Perm l) (ha : tag ∉ GoMap.keys body.attrs)
    (he : evalAttrs ext root node body.attrs (ext.ord (path ++ [b "attributes"]) (GoMap.keys body.attrs)) h = .ok (vals, h')) :
    tag ∉ nullKeys vals := by
  intro hx
  obtain ⟨e, he', rfl⟩ := List.mem_map.1 hx
  have hk := evalAttrs_keys he
  have hin : e.1 ∈ vals.map Prod.fst := List.mem_map.2 ⟨e, (List.mem_filter.1 he').1, rfl⟩
  rw [hk] at hin
  exact ha ((hord _ _).mem_iff.1 hin)

theorem oriBlocks_plain {nulls lf vals tag} (ha : tag ∉ GoMap.keys body.attrs) :
    oriBlocks ext nulls lf body vals tag = (blocksOf body tag).map fun x => ⟨x.1, some x.2⟩ := by
  have : GoMap.get? body.attrs tag = none := GoMap.get?_eq_none.2 ha
  simp only [oriBlocks, this, blocksOf, List.map_map]
  split
  · rename_i h1 h2; cases h2
  · rfl

/-- What happens to a field given by blocks, from the outside. -/
theorem field_final {v : CVal} (hord : ∀ p l, (ext.ord p l).Perm l) (hd : DistinctNames env n cls)
    (hrun : decode env ext root (n + 1) path st node cls fs obj labels body = (fs', .ok st'))
    (hm : f ∈ (env.struct cls).fields) (hf : Decodes f) (hspec : GoMap.get? obj f.name = some v)
    (ha : f.tag ∉ GoMap.keys body.attrs) :
    (blocksOf body f.tag = [] → GoMap.get? fs' f.name = GoMap.get? fs f.name) ∧
    (blocksOf body f.tag ≠ [] → ∃ r st1 st2,
      oriValue env ext (decode env ext root n) path node f.tag f.ty v
        ((blocksOf body f.tag).map fun x => ⟨x.1, some x.2⟩) st1 = .ok (r, st2) ∧ Later env ext st st1 ∧
      ∀ w, r = some w → GoMap.get? fs' f.name = some w) := by
  obtain ⟨p, hp, hr⟩ := decode_ok hrun
  obtain ⟨h1, h2, hpre, _, _, _⟩ := prepare_ok hp
  obtain ⟨h3, he, _, hl⟩ := prelude_ok hpre
  obtain ⟨ho, hv⟩ := loopFields_spec hm hf (not_null hord ha he) hspec hl
  obtain ⟨fs1, st1, fs2, st2, hs, hfin, hini, l, hsub, hbef⟩ := oris_final (found_nodup hd hl) ho hr
  have hlat := steps_later hp (decode_rel (laterRel env ext root) n) hsub hbef
  rw [hfin, ← hini]
  simp only [oriStep, oriBlocks_plain ha, hv, Option.getD_some] at hs
  refine ⟨fun h0 => ?_, fun h0 => ?_⟩
  · rw [h0] at hs; cases hs; rfl
  · cases hb : blocksOf body f.tag with
    | nil => exact absurd hb h0
    | cons x xs =>
      rw [hb] at hs
      simp only [List.map_cons] at hs ⊢
      split at hs
      · cases hs
      · rename_i hov
        cases hs
        exact ⟨none, _, _, hov, hlat, fun w hw => by cases hw⟩
      · rename_i w st3 hov
        refine ⟨some w, _, _, hov, hlat, fun w' hw' => ?_⟩
        cases hw'
        cases hset : setF f.name w fs1 with
        | error e => rw [hset] at hs; cases hs
        | ok r => rw [hset] at hs; cases hs; rw [get?_setF hset, if_pos rfl]

theorem map_ok {α β : Type} {g : α → β} {x : Except Fail α} {y : β} (h : x.map g = .ok y) : ∃ a, x = .ok a ∧ g a = y := by
  cases x with
  | error e => cases h
  | ok a => cases h; exact ⟨a, rfl, rfl⟩

theorem lt_of_get? {α : Type} {l : List α} {k : Nat} {a : α} (h : l[k]? = some a) : k < l.length := by
  by_contra hx
  rw [List.getElem?_eq_none (by omega)] at h
  cases h

theorem elems_later {tag : Bytes} {ety : Ty} {clsAt : Nat → Cls} {blks : List Blk} {vs : List Val} {s : Nat → St}
    (h0 : Later env ext st (s 0)) (hlen : vs.length = blks.length)
    (h : ∀ k blk v, blks[k]? = some blk → vs[k]? = some v → ElemFrom env ext root n node tag ety (clsAt k) blk (s k) (s (k + 1)) v) :
    ∀ k < vs.length, Later env ext st (s k) := by
  refine later_chain h0 fun k hk => ?_
  obtain ⟨_, _, _, _, hba, _⟩ := h k _ _ (List.getElem?_eq_getElem (by omega)) (List.getElem?_eq_getElem hk)
  exact hba.later

/-- **C57, partial.** A slice field that is specified by a list of classes gets one element per block of its type, in source
order, the k-th block decoded with the k-th class, or with the first if the list is shorter.  Without such blocks it stays
as it was.  Missing: fields that hide others (`C57_violated` in `Props/HclStructShadow`), blocks written as attributes. -/
theorem C57_partial {ety : Ty} {c0 : Cls} {cs : List Cls} (hord : ∀ p l, (ext.ord p l).Perm l) (hd : DistinctNames env n cls)
    (hrun : decode env ext root (n + 1) path st node cls fs obj labels body = (fs', .ok st'))
    (hm : f ∈ (env.struct cls).fields) (hf : Decodes f) (hty : f.ty = .slice ety)
    (hspec : GoMap.get? obj f.name = some (.list (c0 :: cs))) (ha : f.tag ∉ GoMap.keys body.attrs) :
    (blocksOf body f.tag = [] → GoMap.get? fs' f.name = GoMap.get? fs f.name) ∧
    (blocksOf body f.tag ≠ [] → ∃ (vs : List Val) (s : Nat → St),
      GoMap.get? fs' f.name = some (.slice vs) ∧ vs.length = (blocksOf body f.tag).length ∧
      ∀ k ls inner v, (blocksOf body f.tag)[k]? = some (ls, inner) → vs[k]? = some v →
        ∃ c out, BlockAs env ext root n node st f.tag ((c0 :: cs).getD k c0) ls inner (s k) (s (k + 1)) c out ∧
          Holds env ety c out v) := by
  obtain ⟨h1, h2⟩ := field_final hord hd hrun hm hf hspec ha
  refine ⟨h1, fun h0 => ?_⟩
  obtain ⟨r, st1, st2, hv, hlat, hfin⟩ := h2 h0
  simp only [oriValue, hty] at hv
  obtain ⟨⟨vs, st3⟩, hl, hr⟩ := map_ok hv
  cases hr
  obtain ⟨hlen, s, rfl, _, hel⟩ := listLoop_ok hl
  have hch := elems_later hlat hlen hel
  refine ⟨vs, s, hfin _ rfl, by simpa using hlen, ?_⟩
  intro k ls inner v hb hvk
  obtain ⟨body', c, out, hbody, hba, hh⟩ := hel k ⟨ls, some inner⟩ v (by simp [hb]) hvk
  cases hbody
  exact ⟨c, out, hba.block (hch k (lt_of_get? hvk)), hh⟩

-- Two classes for three blocks.
example : Demo.outcome (Demo.run Demo.ext [(b "Items", .list [.mk (b "Item") [], .mk (b "Item") []])] Demo.doc) =
    ([(b "Name", .str (b "n")), (b "Alt", .str []),
      (b "Items", .slice [.ref 1 [(b "Id", .str (b "a")), (b "Val", .str (b "1"))],
        .ref 1 [(b "Id", .str (b "c")), (b "Val", .str (b "2"))],
        .ref 1 [(b "Id", .str (b "d")), (b "Val", .str (b "3"))]]),
      (b "Table", .leaf 0), (b "Pairs", .leaf 0), (b "One", .leaf 0)], none) := by rfl

/-- A field without specification whose type has a struct as element. -/
theorem default_spec {vals h h' lf} {mk : Bytes → CVal} {e : Ty} {name tmpl}
    (hord : ∀ p l, (ext.ord p l).Perm l) (hd : DistinctNames env n cls)
    (he : evalAttrs ext root node body.attrs (ext.ord (path ++ [b "attributes"]) (GoMap.keys body.attrs)) h = .ok (vals, h'))
    (hl : loopFields env ext (nullKeys vals) n (env.struct cls).fields ⟨[], [], [], [], obj, st.ref⟩ = .ok lf)
    (hm : f ∈ (env.struct cls).fields) (hf : Decodes f) (hspec : GoMap.get? obj f.name = none)
    (ha : f.tag ∉ GoMap.keys body.attrs) (hk : elemKind env ext e = .cls name tmpl)
    (htag : ∀ lf : LF, lf.addTagged env ext f = lf.addElem f (elemKind env ext e) mk) :
    f ∈ lf.oris ∧ GoMap.get? lf.obj f.name = some (mk name) := by
  obtain ⟨lf1, _, hg⟩ := loopFields_default hm hf (not_null hord ha he) hspec hl (found_nodup hd hl)
  rw [htag, hk] at hg
  exact ⟨hg.oris _ (by simp [LF.addElem, LF.addOri]), hg.obj _ _ (by simp [LF.addElem, LF.addOri, GoMap.get?_set_self])⟩

/-- As `field_final`, for a field without specification. -/
theorem field_default {mk : Bytes → CVal} {e : Ty} {name tmpl} (hord : ∀ p l, (ext.ord p l).Perm l) (hd : DistinctNames env n cls)
    (hrun : decode env ext root (n + 1) path st node cls fs obj labels body = (fs', .ok st'))
    (hm : f ∈ (env.struct cls).fields) (hf : Decodes f) (hspec : GoMap.get? obj f.name = none)
    (ha : f.tag ∉ GoMap.keys body.attrs) (hk : elemKind env ext e = .cls name tmpl)
    (htag : ∀ lf : LF, lf.addTagged env ext f = lf.addElem f (elemKind env ext e) mk) :
    (blocksOf body f.tag = [] → GoMap.get? fs' f.name = GoMap.get? fs f.name) ∧
    (blocksOf body f.tag ≠ [] → ∃ r st1 st2,
      oriValue env ext (decode env ext root n) path node f.tag f.ty (mk name)
        ((blocksOf body f.tag).map fun x => ⟨x.1, some x.2⟩) st1 = .ok (r, st2) ∧ Later env ext st st1 ∧
      ∀ w, r = some w → GoMap.get? fs' f.name = some w) := by
  obtain ⟨p, hp, hr⟩ := decode_ok hrun
  obtain ⟨h1, h2, hpre, _, _, _⟩ := prepare_ok hp
  obtain ⟨h3, he, _, hl⟩ := prelude_ok hpre
  obtain ⟨ho, hv⟩ := default_spec hord hd he hl hm hf hspec ha hk htag
  obtain ⟨fs1, st1, fs2, st2, hs, hfin, hini, l, hsub, hbef⟩ := oris_final (found_nodup hd hl) ho hr
  have hlat := steps_later hp (decode_rel (laterRel env ext root) n) hsub hbef
  rw [hfin, ← hini]
  simp only [oriStep, oriBlocks_plain ha, hv, Option.getD_some] at hs
  refine ⟨fun h0 => ?_, fun h0 => ?_⟩
  · rw [h0] at hs; cases hs; rfl
  · cases hb : blocksOf body f.tag with
    | nil => exact absurd hb h0
    | cons x xs =>
      rw [hb] at hs
      simp only [List.map_cons] at hs ⊢
      split at hs
      · cases hs
      · rename_i hov
        cases hs
        exact ⟨none, _, _, hov, hlat, fun w hw => by cases hw⟩
      · rename_i w st3 hov
        refine ⟨some w, _, _, hov, hlat, fun w' hw' => ?_⟩
        cases hw'
        cases hset : setF f.name w fs1 with
        | error e => rw [hset] at hs; cases hs
        | ok r => rw [hset] at hs; cases hs; rw [get?_setF hset, if_pos rfl]

-- its hypotheses
example : (∀ p l, (Demo.ext.ord p l).Perm l) ∧ DistinctNames Demo.env 1 0 ∧ Demo.fItems ∈ (Demo.env.struct 0).fields ∧
    Decodes Demo.fItems ∧ Demo.fItems.tag ∉ GoMap.keys Demo.doc.attrs ∧ blocksOf Demo.doc Demo.fItems.tag ≠ [] :=
  ⟨fun _ _ => List.Perm.refl _, (by unfold DistinctNames; decide +kernel), (by decide +kernel),
    ⟨rfl, (by decide +kernel), (by decide +kernel), (by decide +kernel)⟩, (by decide +kernel), (by intro h; cases h)⟩

/-- The struct type behind an element type. -/
inductive ElemOf : Ty → Nat → Prop where
  | struct {c} : ElemOf (.struct c) c
  | ptr {c} : ElemOf (.ptr (.struct c)) c

theorem ElemOf.kind {e : Ty} {c : Nat} (h : ElemOf e c) : elemKind env ext e = .cls (env.tyStr e) (newOf env ext (.struct c)) := by
  cases h <;> rfl

theorem Holds.elem {e : Ty} {c c' : Nat} {out v} (h : ElemOf e c) (hh : Holds env e c' out v) : c' = c := by
  cases h <;> cases hh <;> rfl

/-- **C57, without specification, partial.** A field of type `[]T` or `[]*T` gets one `T` per block of its type, in source order.  Missing: as for
`C57_partial`. -/
theorem C57_default_partial {ety : Ty} {c : Nat} (hord : ∀ p l, (ext.ord p l).Perm l) (hd : DistinctNames env n cls)
    (hrun : decode env ext root (n + 1) path st node cls fs obj labels body = (fs', .ok st'))
    (hm : f ∈ (env.struct cls).fields) (hf : Decodes f) (hty : f.ty = .slice ety) (hel : ElemOf ety c)
    (hspec : GoMap.get? obj f.name = none) (ha : f.tag ∉ GoMap.keys body.attrs) :
    (blocksOf body f.tag = [] → GoMap.get? fs' f.name = GoMap.get? fs f.name) ∧
    (blocksOf body f.tag ≠ [] → ∃ (vs : List Val) (s : Nat → St),
      GoMap.get? fs' f.name = some (.slice vs) ∧ vs.length = (blocksOf body f.tag).length ∧
      ∀ k ls inner v, (blocksOf body f.tag)[k]? = some (ls, inner) → vs[k]? = some v →
        ∃ out, BlockAs env ext root n node st f.tag (.mk (env.tyStr ety) []) ls inner (s k) (s (k + 1)) c out ∧
          Holds env ety c out v) := by
  obtain ⟨h1, h2⟩ := field_default (mk := fun s => .list [.mk s []]) hord hd hrun hm hf hspec ha hel.kind
    (fun lf => by simp only [LF.addTagged, hty, Ty.deref])
  refine ⟨h1, fun h0 => ?_⟩
  obtain ⟨r, st1, st2, hv, hlat, hfin⟩ := h2 h0
  simp only [oriValue, hty] at hv
  obtain ⟨⟨vs, st3⟩, hl, hr⟩ := map_ok hv
  cases hr
  obtain ⟨hlen, s, rfl, _, hels⟩ := listLoop_ok hl
  have hch := elems_later hlat hlen hels
  refine ⟨vs, s, hfin _ rfl, by simpa using hlen, ?_⟩
  intro k ls inner v hb hvk
  obtain ⟨body', c', out, hbody, hba, hh⟩ := hels k ⟨ls, some inner⟩ v (by simp [hb]) hvk
  cases hbody
  obtain rfl := hh.elem hel
  have : ([Cls.mk (env.tyStr ety) []] : List Cls).getD k (.mk (env.tyStr ety) []) = .mk (env.tyStr ety) [] := by
    cases k <;> simp
  rw [this] at hba
  exact ⟨out, hba.block (hch k (lt_of_get? hvk)), hh⟩

example : Demo.outcome (Demo.run Demo.ext [] Demo.doc) =
    ([(b "Name", .str (b "n")), (b "Alt", .str []),
      (b "Items", .slice [.ref 1 [(b "Id", .str (b "a")), (b "Val", .str (b "1"))],
        .ref 1 [(b "Id", .str (b "c")), (b "Val", .str (b "2"))],
        .ref 1 [(b "Id", .str (b "d")), (b "Val", .str (b "3"))]]),
      (b "Table", .leaf 0), (b "Pairs", .leaf 0), (b "One", .leaf 0)], none) := by rfl

/-! ## Maps -/

theorem entries_of {κ : Type} [DecidableEq κ] {lt : κ → κ → Bool} {tag ety} {clsOf : Blk → Option Cls}
    {keyOf : Blk → Nat → Fields → κ → Prop} {okBlk : Blk → Prop} {blocks : List (List Bytes × Body)} {st st' : St}
    {base : St} {es : List (κ × Val)} {P : List Bytes → Cls → Prop} {Q : List Bytes → Nat → Fields → κ → Prop}
    (h : MapFrom env ext root n node tag ety clsOf keyOf okBlk (blocks.map fun x => ⟨x.1, some x.2⟩) st st' es)
    (hlat : Later env ext base st)
    (hP : ∀ ls inner cls, okBlk ⟨ls, some inner⟩ → clsOf ⟨ls, some inner⟩ = some cls → P ls cls)
    (hQ : ∀ ls inner c out key, okBlk ⟨ls, some inner⟩ → keyOf ⟨ls, some inner⟩ c out key → Q ls c out key) :
    Entries env ext root n node base tag ety P Q blocks (es.foldl (fun m e => insertK lt e.1 e.2 m) []) := by
  obtain ⟨hlen, s, rfl, _, h⟩ := h
  have hch : ∀ k < es.length, Later env ext base (s k) := by
    refine later_chain hlat fun k hk => ?_
    obtain ⟨_, _, _, _, _, _, _, hba, _⟩ := h k _ _ (List.getElem?_eq_getElem (by omega)) (List.getElem?_eq_getElem hk)
    exact hba.later
  refine ⟨es, s, by simpa using hlen, ?_, fun key => ?_⟩
  · intro k ls inner e hb he
    obtain ⟨hok, cls, body, c, out, hc, hbody, hba, hh, hk⟩ := h k ⟨ls, some inner⟩ e (by simp [hb]) he
    cases hbody
    exact ⟨cls, c, out, hP _ _ _ hok hc, hba.block (hch k (lt_of_get? he)), hh, hQ _ _ _ _ _ hok hk⟩
  · rw [get?_foldl_insertK]; simp [GoMap.get?]

/-- **C58, classes in a list.** A map field specified by a list of classes: each block is decoded with the first class
and becomes the entry for its first label; later blocks win; there are no other entries. -/
theorem C58_list {kt : KeyTy} {ety : Ty} {c0 : Cls} {cs : List Cls} (hord : ∀ p l, (ext.ord p l).Perm l)
    (hd : DistinctNames env n cls)
    (hrun : decode env ext root (n + 1) path st node cls fs obj labels body = (fs', .ok st'))
    (hm : f ∈ (env.struct cls).fields) (hf : Decodes f) (hty : f.ty = .map kt ety)
    (hspec : GoMap.get? obj f.name = some (.list (c0 :: cs))) (ha : f.tag ∉ GoMap.keys body.attrs) :
    (blocksOf body f.tag = [] → GoMap.get? fs' f.name = GoMap.get? fs f.name) ∧
    (blocksOf body f.tag ≠ [] → ∃ m, GoMap.get? fs' f.name = some (.map m) ∧
      Entries env ext root n node st f.tag ety (fun _ cl => cl = c0) (fun ls _ _ key => ls.head? = some key)
        (blocksOf body f.tag) m) := by
  obtain ⟨h1, h2⟩ := field_final hord hd hrun hm hf hspec ha
  refine ⟨h1, fun h0 => ?_⟩
  obtain ⟨r, st1, st2, hv, hlat, hfin⟩ := h2 h0
  simp only [oriValue, hty] at hv
  obtain ⟨⟨m, st3⟩, hl, hr⟩ := map_ok hv
  cases hr
  obtain ⟨es, rfl, hes⟩ := listMapLoop_ok hl
  refine ⟨_, hfin _ rfl, entries_of hes hlat (fun _ _ _ _ h => (Option.some.inj h).symm) ?_⟩
  intro ls inner c out key hne hk
  cases ls with
  | nil => exact absurd rfl hne
  | cons a ls => simpa using hk

/-- Three blocks, two of them with the same label. -/
def Demo.table : Body := .mk []
  [(b "table", [b "c"], Demo.leaf "1"), (b "table", [b "a"], Demo.leaf "2"), (b "table", [b "c"], Demo.leaf "3")]

example : GoMap.get? (Demo.run Demo.ext [(b "Table", .list [.mk (b "Item") []])] Demo.table).1 (b "Table") =
    some (.map [(b "a", .ref 1 [(b "Id", .str (b "a")), (b "Val", .str (b "2"))]),
      (b "c", .ref 1 [(b "Id", .str (b "c")), (b "Val", .str (b "3"))])]) := by rfl

/-- **C58, without specification.** A field of type `map[string]T` or `map[string]*T`. -/
theorem C58_default {ety : Ty} {c : Nat} (hord : ∀ p l, (ext.ord p l).Perm l) (hd : DistinctNames env n cls)
    (hrun : decode env ext root (n + 1) path st node cls fs obj labels body = (fs', .ok st'))
    (hm : f ∈ (env.struct cls).fields) (hf : Decodes f) (hty : f.ty = .map .str ety) (hel : ElemOf ety c)
    (hspec : GoMap.get? obj f.name = none) (ha : f.tag ∉ GoMap.keys body.attrs) :
    (blocksOf body f.tag = [] → GoMap.get? fs' f.name = GoMap.get? fs f.name) ∧
    (blocksOf body f.tag ≠ [] → ∃ m, GoMap.get? fs' f.name = some (.map m) ∧
      Entries env ext root n node st f.tag ety (fun _ cl => cl = .mk (env.tyStr ety) [])
        (fun ls c' _ key => c' = c ∧ ls.head? = some key) (blocksOf body f.tag) m) := by
  obtain ⟨h1, h2⟩ := field_default (mk := fun s => .list [.mk s []]) hord hd hrun hm hf hspec ha hel.kind
    (fun lf => by simp only [LF.addTagged, hty, Ty.deref])
  refine ⟨h1, fun h0 => ?_⟩
  obtain ⟨r, st1, st2, hv, hlat, hfin⟩ := h2 h0
  simp only [oriValue, hty] at hv
  obtain ⟨⟨m, st3⟩, hl, hr⟩ := map_ok hv
  cases hr
  obtain ⟨es, rfl, hes⟩ := listMapLoop_ok hl
  refine ⟨_, hfin _ rfl, ?_⟩
  obtain ⟨es', s, hlen, hx, hg⟩ := entries_of (lt := ltB) (P := fun _ cl => cl = .mk (env.tyStr ety) [])
    (Q := fun ls _ _ key => ls.head? = some key) hes hlat (fun _ _ _ _ h => (Option.some.inj h).symm) (by
      intro ls inner c out key hne hk
      cases ls with
      | nil => exact absurd rfl hne
      | cons a ls => simpa using hk)
  refine ⟨es', s, hlen, fun k ls inner e hb he => ?_, hg⟩
  obtain ⟨cl, c', out, h1, h2, h3, h4⟩ := hx k ls inner e hb he
  exact ⟨cl, c', out, h1, h2, h3, h3.elem hel, h4⟩

theorem firstOf_mem {l : List Bytes} {m : List (Bytes × Cls)} {d} (h : firstOf l m = some d) : ∃ k, GoMap.get? m k = some d := by
  simp only [firstOf] at h
  cases hl : l.head? with
  | none => rw [hl] at h; cases h
  | some k => rw [hl] at h; exact ⟨k, h⟩

/-- **C58, classes in a map.** A map field specified by a map of classes: each block has exactly one label, is decoded with
the class for that label, or else with a default `d` that is one of the classes given, and becomes the entry for its
label; later blocks win; there are no other entries. -/
theorem C58_map {kt : KeyTy} {ety : Ty} {cm : List (Bytes × Cls)} (hord : ∀ p l, (ext.ord p l).Perm l)
    (hd : DistinctNames env n cls)
    (hrun : decode env ext root (n + 1) path st node cls fs obj labels body = (fs', .ok st'))
    (hm : f ∈ (env.struct cls).fields) (hf : Decodes f) (hty : f.ty = .map kt ety)
    (hspec : GoMap.get? obj f.name = some (.map cm)) (ha : f.tag ∉ GoMap.keys body.attrs) :
    (blocksOf body f.tag = [] → GoMap.get? fs' f.name = GoMap.get? fs f.name) ∧
    (blocksOf body f.tag ≠ [] → ∃ m d k0, GoMap.get? cm k0 = some d ∧ GoMap.get? fs' f.name = some (.map m) ∧
      Entries env ext root n node st f.tag ety (fun ls cl => ∃ l, ls = [l] ∧ cl = (GoMap.get? cm l).getD d)
        (fun ls _ _ key => ls = [key]) (blocksOf body f.tag) m) := by
  obtain ⟨h1, h2⟩ := field_final hord hd hrun hm hf hspec ha
  refine ⟨h1, fun h0 => ?_⟩
  obtain ⟨r, st1, st2, hv, hlat, hfin⟩ := h2 h0
  simp only [oriValue, hty] at hv
  obtain ⟨⟨m, st3⟩, hl, hr⟩ := map_ok hv
  cases hr
  obtain ⟨es, rfl, hes⟩ := mapLoop_ok hl
  have hfirst : ∃ d k0, GoMap.get? cm k0 = some d ∧
      firstOf (ext.ord (path ++ [f.tag]) (GoMap.keys cm)) cm = some d := by
    cases hc : firstOf (ext.ord (path ++ [f.tag]) (GoMap.keys cm)) cm with
    | some d =>
      obtain ⟨k0, hk0⟩ := firstOf_mem hc
      exact ⟨d, k0, hk0, rfl⟩
    | none =>
      exfalso
      have hempty : cm = [] := by
        simp only [firstOf] at hc
        cases ho : ext.ord (path ++ [f.tag]) (GoMap.keys cm) with
        | nil =>
          have := (hord (path ++ [f.tag]) (GoMap.keys cm)).length_eq
          rw [ho] at this
          cases cm with
          | nil => rfl
          | cons e cm => simp [GoMap.keys] at this
        | cons k ks =>
          rw [ho] at hc
          have hk : k ∈ GoMap.keys cm := (hord (path ++ [f.tag]) _).mem_iff.1 (by rw [ho]; simp)
          exact absurd hk (GoMap.get?_eq_none.1 hc)
      subst hempty
      cases hb : blocksOf body f.tag with
      | nil => exact h0 hb
      | cons x xs =>
        rw [hb] at hes
        obtain ⟨hlen, s, _, _, hx⟩ := hes
        cases es with
        | nil => simp at hlen
        | cons e es =>
          obtain ⟨_, cl, _, _, _, hcl, _⟩ := hx 0 ⟨x.1, some x.2⟩ e (by simp) (by simp)
          simp only [classFor] at hcl
          rw [hc] at hcl
          simp [GoMap.get?] at hcl
  obtain ⟨d, k0, hk0, hd0⟩ := hfirst
  refine ⟨_, d, k0, hk0, hfin _ rfl, entries_of hes hlat ?_ ?_⟩
  · intro ls inner cl hok hcl
    obtain ⟨l, rfl⟩ := List.length_eq_one_iff.1 hok
    refine ⟨l, rfl, ?_⟩
    simp only [classFor, hd0, List.getD_cons_zero] at hcl
    cases hg : GoMap.get? cm l with
    | none => rw [hg] at hcl; simpa using hcl.symm
    | some x => rw [hg] at hcl; simpa using hcl.symm
  · intro ls inner c out key hok hk
    obtain ⟨l, rfl⟩ := List.length_eq_one_iff.1 hok
    simpa using hk

-- Label `a` has its own class, `c` gets the default.
example : GoMap.get? (Demo.run Demo.ext [(b "Table", .map [(b "z", .mk (b "Item") []), (b "a", .mk (b "Other") [])])]
      Demo.table).1 (b "Table") =
    some (.map [(b "a", .ref 2 [(b "Val", .str (b "2"))]),
      (b "c", .ref 1 [(b "Id", .str (b "c")), (b "Val", .str (b "3"))])]) := by rfl

theorem ownLabels_eq {c : Nat} {out : Fields} {l : List Bytes} (h : OwnLabels env c out l) :
    (labelFields env c).map (labelOf out) = l := by
  unfold OwnLabels at h
  unfold labelFields
  generalize (env.struct c).fields.filter (fun f => lower f.what = b "label") = fs at h ⊢
  induction fs generalizing l with
  | nil => cases l with
    | nil => rfl
    | cons s l => simp at h
  | cons f fs ih => cases l with
    | nil => simp at h
    | cons s l =>
      simp only [List.map_cons, List.cons.injEq] at h
      simp only [List.map_cons, ih h.2, labelOf, h.1]

theorem map2Key_pairKey (ls : List Bytes) (c : Nat) (out : Fields) : PairKey env ls c out (map2Key ls (getLabels env c out)) := by
  have hlast : ∀ (mid : List Bytes) (t : Bytes), (mid ++ [t]).getLastD [] = t := by
    intro mid t
    simp [List.getLastD_eq_getLast?]
  refine ⟨?_, ?_, ?_⟩
  · rintro k1 k2 rfl h1 h2
    simp [map2Key, h1, h2]
  · intro k1 hl h1
    have e : ∀ own, map2Key ls own = if own.2 ≠ [] then (k1, own.2) else if own.1 ≠ [] then (k1, own.1) else (k1, []) := by
      intro own
      rcases hl with rfl | rfl <;> simp [map2Key, h1]
    rw [e]
    refine ⟨by split <;> (try split) <;> rfl, fun h => ?_, fun s h => ?_, fun s mid t h => ?_⟩
    · simp [getLabels, ownLabels_eq h]
    · simp only [getLabels, ownLabels_eq h, List.getLastD_nil]
      by_cases hs : s = [] <;> simp [hs]
    · simp only [getLabels, ownLabels_eq h, List.cons_append, hlast]
      by_cases ht : t = []
      · by_cases hs : s = [] <;> simp [hs, ht]
      · simp [ht]
  · intro hl
    have e : ∀ own, map2Key ls own = own := by
      intro own
      rcases hl with rfl | ⟨k2, rfl⟩ <;> simp [map2Key]
    rw [e]
    refine ⟨fun h => ?_, fun s h => ?_, fun s mid t h => ?_⟩
    · simp [getLabels, ownLabels_eq h]
    · simp [getLabels, ownLabels_eq h]
    · simp only [getLabels, ownLabels_eq h, List.cons_append, hlast]

/-- **C58, pairs of labels (partial).** A field of type `map[[2]string]T`: each block has at most two labels, is decoded with
the class for its labels or a default, and becomes the entry for its two labels if both are there and not empty; later
blocks win; there are no other entries.  Blocks with an empty or missing label do not become the entry for their labels (see
`C58_violated`), but the one that `PairKey` says. -/
theorem C58_map2_partial {kt : KeyTy} {ety : Ty} {cm : List (Bytes × List (Bytes × Cls))}
    (hord : ∀ p l, (ext.ord p l).Perm l) (hd : DistinctNames env n cls)
    (hrun : decode env ext root (n + 1) path st node cls fs obj labels body = (fs', .ok st'))
    (hm : f ∈ (env.struct cls).fields) (hf : Decodes f) (hty : f.ty = .map kt ety)
    (hspec : GoMap.get? obj f.name = some (.map2 cm)) (ha : f.tag ∉ GoMap.keys body.attrs) :
    (blocksOf body f.tag = [] → GoMap.get? fs' f.name = GoMap.get? fs f.name) ∧
    (blocksOf body f.tag ≠ [] → ∃ m, GoMap.get? fs' f.name = some (.map2 m) ∧
      Entries env ext root n node st f.tag ety
        (fun ls cl => ls.length ≤ 2 ∧ ∀ k1 k2 inner, ls = [k1, k2] → GoMap.get? cm k1 = some inner →
          ∀ cl', GoMap.get? inner k2 = some cl' → cl = cl')
        (PairKey env) (blocksOf body f.tag) m) := by
  obtain ⟨h1, h2⟩ := field_final hord hd hrun hm hf hspec ha
  refine ⟨h1, fun h0 => ?_⟩
  obtain ⟨r, st1, st2, hv, hlat, hfin⟩ := h2 h0
  simp only [oriValue, hty] at hv
  obtain ⟨⟨m, st3⟩, hl, hr⟩ := map_ok hv
  cases hr
  obtain ⟨es, rfl, hes⟩ := map2Loop_ok hl
  refine ⟨_, hfin _ rfl, entries_of hes hlat ?_ ?_⟩
  · intro ls inner cl hok hcl
    refine ⟨hok, ?_⟩
    rintro k1 k2 inn rfl hk1 cl' hk2
    simp [classFor2, hk1, hk2] at hcl
    exact hcl.symm
  · rintro ls inner c out key - rfl
    exact map2Key_pairKey _ _ _

example : GoMap.get? (Demo.run Demo.ext [] (.mk [] [(b "pairs", [b "a", b "x"], Demo.leaf "1"),
      (b "pairs", [b "a", b "w"], Demo.leaf "2")])).1 (b "Pairs") =
    some (.map2 [((b "a", b "w"), .ref 2 [(b "Val", .str (b "2"))]), ((b "a", b "x"), .ref 2 [(b "Val", .str (b "1"))])]) := by rfl

-- A block with the one label `a`, decoded as a struct with one label field, becomes the entry for `a` and `a`.
example (key : Bytes × Bytes) (h : PairKey Demo.env [b "a"] 1 [(b "Id", .str (b "a")), (b "Val", .str (b "1"))] key) : key = (b "a", b "a") := by
  obtain ⟨h1, -, h2, -⟩ := h.one (b "a") (.inl rfl) (by decide)
  exact Prod.ext h1 (h2 (b "a") rfl)

/-- **C58 is violated** for pairs of labels: if the first label is empty, both labels are replaced by the label fields
of the struct.  Here it has none, so two blocks with different labels end as one entry, under a key that is neither. -/
theorem C58_violated : GoMap.get? (Demo.run Demo.ext [] (.mk [] [(b "pairs", [[], b "x"], Demo.leaf "1"),
      (b "pairs", [[], b "w"], Demo.leaf "2")])).1 (b "Pairs") =
    some (.map2 [(([], []), .ref 2 [(b "Val", .str (b "2"))])]) := by rfl

/-! ## Labels -/

theorem labels_found {vals h h' lf} (hord : ∀ p l, (ext.ord p l).Perm l) (h0 : [] ∉ GoMap.keys body.attrs)
    (ha : ∀ f ∈ labelsOf env n cls, f.tag ∉ GoMap.keys body.attrs)
    (he : evalAttrs ext root node body.attrs (ext.ord (path ++ [b "attributes"]) (GoMap.keys body.attrs)) h = .ok (vals, h'))
    (hl : loopFields env ext (nullKeys vals) n (env.struct cls).fields ⟨[], [], [], [], obj, st.ref⟩ = .ok lf) :
    lf.labels = labelsOf env n cls ∧ ∀ t, t ∉ GoMap.keys body.attrs → GoMap.get? vals t = none := by
  refine ⟨?_, ?_⟩
  · rw [loopFields_labels (not_null hord h0 he) n _ _ _ hl]
    simp only [List.nil_append, labelsOf]
    rw [List.filter_eq_self]
    intro f hf
    exact decide_eq_true (not_null hord (ha f hf) he)
  · intro t ht
    rw [GoMap.get?_eq_none]
    intro hx
    have hx : t ∈ vals.map Prod.fst := hx
    rw [evalAttrs_keys he] at hx
    exact ht ((hord _ _).mem_iff.1 hx)

/-- A label field is changed by the labels of the block only. -/
theorem labels_final {p : Pre} {rec : Rec} (hnd : (p.lf.all.map Fld.name).Nodup) (hlab : p.lf.labels = labelsOf env n cls)
    (hvals : ∀ t, t ∉ GoMap.keys body.attrs → GoMap.get? p.vals t = none)
    (ha : ∀ f ∈ labelsOf env n cls, f.tag ∉ GoMap.keys body.attrs) (hf : f ∈ labelsOf env n cls)
    (hr : runSteps (steps env ext rec p node labels path body) fs st = (fs', .ok st')) :
    ∃ fb sb, runSteps (labelSteps p.lf labels) fs st = (fb, .ok sb) ∧ GoMap.get? fs' f.name = GoMap.get? fb f.name := by
  simp only [steps, hlab] at hr
  rw [List.append_assoc, List.append_assoc, runSteps_append] at hr
  obtain ⟨fb, sb, hb, hr⟩ := hr
  rw [runSteps_append] at hb
  obtain ⟨fa, sa, hA, hb⟩ := hb
  have hnd' : ((labelsOf env n cls ++ (p.lf.news ++ (p.lf.oris ++ p.lf.decs))).map Fld.name).Nodup := by
    simpa [LF.all, hlab, List.append_assoc] using hnd
  rw [List.map_append, List.nodup_append] at hnd'
  have dis : ∀ g ∈ p.lf.news ++ (p.lf.oris ++ p.lf.decs), f.name ≠ g.name := fun g hg =>
    hnd'.2.2 _ (List.mem_map.2 ⟨f, hf, rfl⟩) _ (List.mem_map.2 ⟨g, hg, rfl⟩)
  have e1 : GoMap.get? fs' f.name = GoMap.get? fb f.name := by
    refine runSteps_keeps ?_ hr
    intro s hs
    simp only [List.mem_append] at hs
    rcases hs with hs | hs | hs
    · obtain ⟨g, hg, rfl⟩ := List.mem_map.1 hs
      exact newStep_keeps (dis g.1 (by simp [(List.of_mem_zip hg).1]))
    · obtain ⟨g, hg, rfl⟩ := List.mem_map.1 hs
      exact decStep_keeps (dis g (by simp [hg]))
    · obtain ⟨g, hg, rfl⟩ := List.mem_map.1 hs
      exact oriStep_keeps (dis g (by simp [hg]))
  have e2 : ∀ {l : List Fld} {fs st}, (∀ g ∈ l, g ∈ labelsOf env n cls) →
      runSteps (l.map (labelAttrStep (routed (nullKeys p.vals) p.lf p.vals .label))) fs st = (fs, .ok st) := by
    intro l fs st hsub
    induction l with
    | nil => rfl
    | cons g l ih =>
      have hno : routed (nullKeys p.vals) p.lf p.vals .label g.tag = none := by
        simp only [routed, hvals _ (ha g (hsub g (by simp))), ite_self]
      simp only [List.map_cons, runSteps, labelAttrStep, hno]
      exact ih fun g hg => hsub g (by simp [hg])
  rw [e2 fun g hg => hg] at hA
  cases hA
  exact ⟨fb, sb, hb, e1⟩

/-- **C61 (partial).** If a block has as many labels as its struct has label fields, then the k-th label goes to the k-th
label field that is still empty; others stay.  Missing: the numbers differ (`C61_violated`, `C61_dropped`), a label field
is also given as attribute. -/
theorem C61_partial (hord : ∀ p l, (ext.ord p l).Perm l) (hd : DistinctNames env n cls)
    (hrun : decode env ext root (n + 1) path st node cls fs obj labels body = (fs', .ok st'))
    (hlen : labels.length = (labelsOf env n cls).length) (h0 : [] ∉ GoMap.keys body.attrs)
    (ha : ∀ f ∈ labelsOf env n cls, f.tag ∉ GoMap.keys body.attrs) :
    ∀ (k : Nat) (f : Fld) (l : Bytes), (labelsOf env n cls)[k]? = some f → labels[k]? = some l →
      (GoMap.get? fs f.name = some (.str []) → GoMap.get? fs' f.name = some (.str l)) ∧
      (GoMap.get? fs f.name ≠ some (.str []) → GoMap.get? fs' f.name = GoMap.get? fs f.name) := by
  obtain ⟨p, hp, hr⟩ := decode_ok hrun
  obtain ⟨h1, h2, hpre, _, _, _⟩ := prepare_ok hp
  obtain ⟨h3, he, _, hl⟩ := prelude_ok hpre
  have hnd := found_nodup hd hl
  obtain ⟨hlab, hvals⟩ := labels_found hord h0 ha he hl
  intro k f l hk hkl
  obtain ⟨fb, sb, hb, e1⟩ := labels_final hnd hlab hvals ha (List.mem_of_getElem? hk) hr
  simp only [labelSteps, hlab, if_pos hlen] at hb
  have hz : (f, l) ∈ (labelsOf env n cls).zip labels :=
    List.mem_of_getElem? (i := k) (by rw [List.getElem?_zip_eq_some]; exact ⟨hk, hkl⟩)
  have hzn : (((labelsOf env n cls).zip labels).map fun p => p.1.name).Nodup := by
    have : ((labelsOf env n cls).zip labels).map (fun p => p.1.name) = (labelsOf env n cls).map Fld.name := by
      conv_rhs => rw [← List.map_fst_zip (l₁ := labelsOf env n cls) (l₂ := labels) (by omega), List.map_map]
      rfl
    rw [this]
    have : ((labelsOf env n cls ++ (p.lf.news ++ (p.lf.oris ++ p.lf.decs))).map Fld.name).Nodup := by
      simpa [LF.all, hlab, List.append_assoc] using hnd
    rw [List.map_append, List.nodup_append] at this
    exact this.1
  rw [e1]
  exact labelSteps_final hzn hb _ hz

example : GoMap.get? (decode Demo.env Demo.ext 0 1 [] ⟨Demo.heap0, Demo.ref0⟩ 0 1 Demo.item [] [b "a"] (Demo.leaf "1")).1 (b "Id") =
    some (.str (b "a")) := by rfl
example : labelsOf Demo.env 0 1 = [Demo.fId] := by rfl

/-- **C61 is violated** if there are more or fewer labels than label fields: all of them are dropped, without an error. -/
theorem C61_violated :
    Demo.outcome (decode Demo.env Demo.ext 0 1 [] ⟨Demo.heap0, Demo.ref0⟩ 0 1 Demo.item [] [b "a", b "x"] (Demo.leaf "1")) =
      ([(b "Id", .str []), (b "Val", .str (b "1"))], none) := by rfl

/-- The same for every block and every struct: labels in the wrong number leave the label fields alone, unless these are
given as attributes. -/
theorem C61_dropped (hord : ∀ p l, (ext.ord p l).Perm l) (hd : DistinctNames env n cls)
    (hrun : decode env ext root (n + 1) path st node cls fs obj labels body = (fs', .ok st'))
    (hlen : labels.length ≠ (labelsOf env n cls).length) (h0 : [] ∉ GoMap.keys body.attrs)
    (ha : ∀ f ∈ labelsOf env n cls, f.tag ∉ GoMap.keys body.attrs) :
    ∀ f ∈ labelsOf env n cls, GoMap.get? fs' f.name = GoMap.get? fs f.name := by
  obtain ⟨p, hp, hr⟩ := decode_ok hrun
  obtain ⟨h1, h2, hpre, _, _, _⟩ := prepare_ok hp
  obtain ⟨h3, he, _, hl⟩ := prelude_ok hpre
  obtain ⟨hlab, hvals⟩ := labels_found hord h0 ha he hl
  intro f hf
  obtain ⟨fb, sb, hA, e1⟩ := labels_final (found_nodup hd hl) hlab hvals ha hf hr
  rw [e1]
  simp only [labelSteps, hlab, if_neg hlen, runSteps] at hA
  cases hA; rfl

end Verif.HclS
