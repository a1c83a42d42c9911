import Verif.Props.HclStructTotal
import Verif.Lemmas.HclStructAttr
/-!
# Decoding HCL into a struct: attributes, single structs, and fields that are not touched
-/
set_option linter.unusedSimpArgs false

namespace Verif.HclS
open Tree (Heap)
open Hcl (Cty Expr)
open Det (Cls CVal KeyTy insertK ltB)

variable {env : Env} {ext : Ext} {root n node cls : Nat} {path : List Bytes} {st st' : St} {fs fs' : Fields}
  {obj : List (Bytes × CVal)} {labels : List Bytes} {body : Body} {f : Fld}

/-- **C68, attributes, partial.** After a successful call a field of ordinary type holds the value of the attribute with its tag,
as `gohcl` converts it, the value being computed with the variables of the whole tree as it is then (`g`); without such an attribute, or if it is null, the field is as before.  Missing: fields that hide others
(`C68_violated` in `Props/HclStructShadow`). -/
theorem C68_attr_partial (hord : ∀ p l, (ext.ord p l).Perm l) (hd : DistinctNames env n cls)
    (hrun : decode env ext root (n + 1) path st node cls fs obj labels body = (fs', .ok st'))
    (hm : f ∈ (env.struct cls).fields) (hf : Decodes f) (hty : f.ty = .str ∨ ∃ i, f.ty = .leaf i)
    (hone : ∀ g ∈ flat env n (env.struct cls).fields, g.tag = f.tag → g.name = f.name)
    (hspec : GoMap.get? obj f.name = none) (hkeys : (GoMap.keys body.attrs).Nodup) :
    (GoMap.get? body.attrs f.tag = none → GoMap.get? fs' f.name = GoMap.get? fs f.name) ∧
    ∀ a, GoMap.get? body.attrs f.tag = some a → ∃ g vars cv,
      (Tree.Inv st.heap → Tree.Le st.heap g) ∧ Tree.variables g root = some vars ∧ evalE ext vars a.expr = .ok cv ∧
      (cv = .null → GoMap.get? fs' f.name = GoMap.get? fs f.name) ∧
      (cv ≠ .null → ∃ v, ext.leaf f cv = .ok v ∧ GoMap.get? fs' f.name = some v) := by
  obtain ⟨p, hp, hr⟩ := decode_ok hrun
  obtain ⟨h1, h2, hpre, _, _, hraw⟩ := prepare_ok hp
  obtain ⟨h3, he, _, hl⟩ := prelude_ok hpre
  have hnd := found_nodup hd hl
  have hvk : p.vals.map Prod.fst = ext.ord (path ++ [b "attributes"]) (GoMap.keys body.attrs) := evalAttrs_keys he
  have hvnd : (p.vals.map Prod.fst).Nodup := by rw [hvk]; exact (hord _ _).nodup_iff.2 hkeys
  have hleaves : decodeLeaves ext (routed (nullKeys p.vals) p.lf p.vals .plain) p.lf.news = .ok p.raw := by
    simp only [gohclDecode] at hraw
    repeat (split at hraw; · cases hraw)
    exact hraw
  obtain ⟨l, hperm, hsub⟩ := loopFields_found n _ _ _ hl
  have hperm : p.lf.all.Perm l := by simpa [LF.all] using hperm
  have hflat : ∀ g ∈ p.lf.all, g ∈ flat env n (env.struct cls).fields := fun g hg => hsub.subset (hperm.mem_iff.1 hg)
  have hnews : f.tag ∉ nullKeys p.vals → f ∈ p.lf.news := by
    intro hn
    obtain ⟨lf1, _, hg⟩ := loopFields_default hm hf hn hspec hl hnd
    have : lf1.addTagged env ext f = { lf1 with news := lf1.news ++ [f] } := by
      rcases hty with h | ⟨i, h⟩ <;> simp only [LF.addTagged, h, Ty.deref]
    rw [this] at hg
    exact hg.news _ (by simp)
  have hdis : f.tag ∉ nullKeys p.vals → ∀ g, g ∈ p.lf.labels ∨ g ∈ p.lf.oris ∨ g ∈ p.lf.decs → g.tag ≠ f.tag := by
    intro hn g hg ht
    have hname := hone g (hflat g (by rcases hg with hg | hg | hg <;> simp [LF.all, hg])) ht
    have hfn : f.name ∈ p.lf.news.map Fld.name := List.mem_map.2 ⟨f, hnews hn, rfl⟩
    simp only [LF.all, List.map_append] at hnd
    rcases hg with hg | hg | hg
    · exact (List.nodup_append.1 (List.nodup_append.1 (List.nodup_append.1 hnd).1).1).2.2 g.name
        (List.mem_map.2 ⟨g, hg, rfl⟩) f.name hfn hname
    · exact (List.nodup_append.1 (List.nodup_append.1 hnd).1).2.2 f.name (List.mem_append_right _ hfn) g.name
        (List.mem_map.2 ⟨g, hg, rfl⟩) hname.symm
    · exact (List.nodup_append.1 hnd).2.2 f.name (by simp only [List.mem_append, hfn, or_true, true_or]) g.name
        (List.mem_map.2 ⟨g, hg, rfl⟩) hname.symm
  have final : f.tag ∉ nullKeys p.vals → (∀ cv, GoMap.get? p.vals f.tag = some cv → ∃ v, ext.leaf f cv = .ok v ∧ GoMap.get? fs' f.name = some v) ∧
      (GoMap.get? p.vals f.tag = none → GoMap.get? fs' f.name = GoMap.get? fs f.name) := by
    intro hn
    have hnn : (p.lf.news.map Fld.name).Nodup := by
      simp only [LF.all, List.map_append] at hnd
      exact (List.nodup_append.1 (List.nodup_append.1 (List.nodup_append.1 hnd).1).1).2.1
    obtain ⟨v, hz, hleaf⟩ := decodeLeaves_value hleaves (hnews hn) hnn
      (fun g hg => hone g (hflat g (by simp [LF.all, hg])))
    have hfin := news_final hnd (decodeLeaves_length hleaves) hz hr
    have hno : ∀ {l' : List Fld}, (∀ g ∈ l', g ∈ p.lf.labels ∨ g ∈ p.lf.oris ∨ g ∈ p.lf.decs) → hasTag l' f.tag = false := by
      intro l' hl'
      by_contra hx
      obtain ⟨g, hg, ht⟩ := List.any_eq_true.1 (by simpa using hx : hasTag l' f.tag = true)
      exact hdis hn g (hl' g hg) (by simpa using ht)
    have hroute : route (nullKeys p.vals) p.lf f.tag = .plain := by
      rw [route, if_neg hn, hno (fun g hg => Or.inr (Or.inr hg)), hno (fun g hg => Or.inl hg), hno (fun g hg => Or.inr (Or.inl hg))]
      simp
    have hrouted : routed (nullKeys p.vals) p.lf p.vals .plain f.tag = GoMap.get? p.vals f.tag := by simp [routed, hroute]
    rw [hrouted] at hfin hleaf
    refine ⟨fun cv hcv => ⟨v, hleaf cv hcv, ?_⟩, fun hcv => ?_⟩
    · rw [hfin, hcv]; rfl
    · rw [hfin, hcv]; rfl
  have hnull : f.tag ∈ nullKeys p.vals → GoMap.get? fs' f.name = GoMap.get? fs f.name := by
    intro hn
    refine runSteps_keeps (steps_keeps ?_) hr
    intro g hg hname
    have hgt := loopFields_notNull n _ _ _ hl (by intro g hg; simp [LF.all] at hg) g hg
    have : g = f := Tree.nodup_map_inj hd (hflat g hg) (flat_mem hm hf) hname.symm
    rw [this] at hgt
    exact hgt hn
  constructor
  · intro ha
    have hk : f.tag ∉ p.vals.map Prod.fst := by
      rw [hvk]
      intro hx
      exact GoMap.get?_eq_none.1 ha ((hord _ _).mem_iff.1 hx)
    refine (final ?_).2 (GoMap.get?_eq_none.2 hk)
    intro hx
    obtain ⟨e, he', hek⟩ := List.mem_map.1 hx
    exact hk (List.mem_map.2 ⟨e, (List.mem_filter.1 he').1, hek⟩)
  · intro a ha
    have hk : f.tag ∈ p.vals.map Prod.fst := by
      rw [hvk]
      refine (hord _ _).mem_iff.2 ?_
      by_contra hx
      rw [GoMap.get?_eq_none.2 hx] at ha; cases ha
    obtain ⟨e, hein, hek⟩ := List.mem_map.1 hk
    obtain ⟨a', g, vars, ha', hg, hvars, hev⟩ := evalAttrs_from he f.tag e.2 (by rw [← hek]; exact hein)
    rw [ha] at ha'; cases ha'
    have hget : GoMap.get? p.vals f.tag = some e.2 := by
      rw [← hek]; exact GoMap.mem_get? hvnd hein
    refine ⟨g, vars, e.2, fun hi => (hg hi).2, hvars, hev, ?_, ?_⟩
    · intro hcv
      refine hnull (List.mem_map.2 ⟨e, List.mem_filter.2 ⟨hein, ?_⟩, hek⟩)
      rw [hcv]; rfl
    · intro hcv
      refine (final ?_).1 _ hget
      intro hx
      obtain ⟨e', he', hek'⟩ := List.mem_map.1 hx
      obtain ⟨hin', hnul⟩ := List.mem_filter.1 he'
      have : e' = e := Tree.nodup_map_inj hvnd hin' hein (hek'.trans hek.symm)
      subst this
      cases hx' : e'.2 <;> rw [hx'] at hnul <;> first | exact hcv hx' | cases hnul

/-- **C68, frame.** Fields of the target that are not among the fields of its type that take part, are as before. -/
theorem C68_frame {name : Bytes} (hrun : decode env ext root (n + 1) path st node cls fs obj labels body = (fs', .ok st'))
    (hno : ∀ g ∈ flat env n (env.struct cls).fields, g.name ≠ name) : GoMap.get? fs' name = GoMap.get? fs name := by
  obtain ⟨p, hp, hr⟩ := decode_ok hrun
  obtain ⟨h1, h2, hpre, _, _, hraw⟩ := prepare_ok hp
  obtain ⟨h3, he, _, hl⟩ := prelude_ok hpre
  obtain ⟨l, hperm, hsub⟩ := loopFields_found n _ _ _ hl
  have hperm : p.lf.all.Perm l := by simpa [LF.all] using hperm
  exact runSteps_keeps (steps_keeps fun g hg hx => hno g (hsub.subset (hperm.mem_iff.1 hg)) hx.symm) hr

/-- **C68, single structs, partial.** A field specified by one class, not given as attribute, holds the first block of its type
decoded with that class; without such blocks it is as before.  Missing: as for `C68_attr_partial`. -/
theorem C68_single_partial {c0 : Cls} (hord : ∀ p l, (ext.ord p l).Perm l) (hd : DistinctNames env n cls)
    (hrun : decode env ext root (n + 1) path st node cls fs obj labels body = (fs', .ok st'))
    (hm : f ∈ (env.struct cls).fields) (hf : Decodes f)
    (hspec : GoMap.get? obj f.name = some (.single c0)) (ha : f.tag ∉ GoMap.keys body.attrs) :
    (blocksOf body f.tag = [] → GoMap.get? fs' f.name = GoMap.get? fs f.name) ∧
    ∀ ls inner more, blocksOf body f.tag = (ls, inner) :: more → ∃ s s' c out v,
      BlockAs env ext root n node st f.tag c0 ls inner s s' c out ∧ Holds env f.ty c out v ∧ GoMap.get? fs' f.name = some v := by
  obtain ⟨h1, h2⟩ := field_final hord hd hrun hm hf hspec ha
  refine ⟨h1, fun ls inner more hb => ?_⟩
  obtain ⟨r, st1, st2, hv, hlat, hfin⟩ := h2 (by rw [hb]; simp)
  rw [hb] at hv
  simp only [oriValue, List.map_cons] at hv
  split at hv
  · cases hv
  rename_i c out st3 hdb
  obtain ⟨v, hst, hr⟩ := map_ok hv
  cases hr
  obtain ⟨body', content, sub, b1, b2, b3, _, b4⟩ := decodeBlock_ok hdb
  cases b1
  exact ⟨_, _, c, out, v, ⟨hlat, content, _, sub, b2, b3, b4⟩, store_holds hst, hfin v rfl⟩

-- Two attributes, one of them null; a block; a field that is not decoded.
example : Demo.outcome (decode Demo.env Demo.ext 0 2 [] ⟨Demo.heap0, Demo.ref0⟩ 0 0
    ((b "Alt", .str (b "old")) :: (b "hidden", .leaf 7) :: Demo.blank.filter fun e => e.1 ≠ b "Alt") [] []
    (.mk [Demo.str "name" "n", (b "alt", ⟨.ident (b "null"), []⟩)] [(b "one", [b "a"], Demo.leaf "1")])) =
    ((b "Alt", .str (b "old")) :: (b "hidden", .leaf 7) :: (b "Name", .str (b "n")) :: (b "Items", .leaf 0) :: (b "Table", .leaf 0) ::
      (b "Pairs", .leaf 0) :: [(b "One", .ref 1 [(b "Id", .str (b "a")), (b "Val", .str (b "1"))])], none) := by rfl

example : (∀ g ∈ flat Demo.env 1 (Demo.env.struct 0).fields, g.tag = Demo.fName.tag → g.name = Demo.fName.name) ∧
    (∀ g ∈ flat Demo.env 1 (Demo.env.struct 0).fields, g.name ≠ b "hidden") ∧ DistinctNames Demo.env 1 0 ∧
    Demo.fName ∈ (Demo.env.struct 0).fields ∧ Demo.fName.ty = .str := by
  refine ⟨by decide +kernel, by decide +kernel, by unfold DistinctNames; decide +kernel, by decide +kernel, rfl⟩

end Verif.HclS
