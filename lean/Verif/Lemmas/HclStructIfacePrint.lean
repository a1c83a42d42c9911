import Verif.Spec.HclStructIfacePrint
import Verif.Lemmas.HclStructIface
import Verif.Lemmas.HclStructPrint
/-!
# Writing structs with interfaces
-/

namespace Verif.HclS
open Hcl (Expr ExprOk IsIdent SafeStr indent Item ItemOk NameOk)
open Det (ltB ltB2 KeyTy Cls CVal)

/-- The recursive call writes structs of at most the given depth as blocks. -/
def RecLines (S : Bytes → Expr → Prop) (own : Bool → Nat → Fields → Option Bytes → List Bytes) (good : Bool → List (Bytes × CVal) → List Bytes → Nat → Fields → Prop)
    (shows : List (Bytes × CVal) → List Bytes → Body → Nat → Fields → Prop) (depth : Nat) (rec : PRec) : Prop :=
  ∀ path level keys addr obj c fs (f : Fld), good addr obj (keys ++ own addr c fs keys.head?) c fs → depthF fs < depth →
    IsIdent f.tag → (∀ l ∈ keys ++ own addr c fs keys.head?, SafeStr l) →
    ∃ t doc, rec path (level + 1) keys addr c fs = .ok t ∧ outOf f keys false t = [⟨f.tag, keys, t, false⟩] ∧
      LineIs ⟨f.tag, keys, t, false⟩ (.block f.tag (keys ++ own addr c fs keys.head?) doc) ∧
      ∀ body, Reads S doc body → shows obj (keys ++ own addr c fs keys.head?) body c fs

section
variable {env : Env} {emb : Nat} {pe : PExt} {ext : Ext} {ref : GoMap Bytes Tmpl}
  {own : Bool → Nat → Fields → Option Bytes → List Bytes} {good : Bool → List (Bytes × CVal) → List Bytes → Nat → Fields → Prop}
  {shows : List (Bytes × CVal) → List Bytes → Body → Nat → Fields → Prop} {depth : Nat} {rec : PRec}
  (hrec : RecLines S own good shows depth rec)
include hrec

/-- A struct that is written as a block. -/
theorem blockFits_line {path level ty e spec ok k keys v} {f : Fld} (ht : IsIdent f.tag) (hv : BlockFits env ext ref own good ty e spec ok k keys v)
    (hd : v.depth ≤ depth) :
    ∃ c fs ls, Holds env e c fs v ∧ ∀ addr, Passed v addr → ∃ t doc, rec path (level + 1) keys addr c fs = .ok t ∧
      outOf f keys false t = [⟨f.tag, keys, t, false⟩] ∧
      LineIs ⟨f.tag, keys, t, false⟩ (.block f.tag (keys ++ ls) doc) ∧
      ∀ body, Reads S doc body →
        BlockDisplays env ext ref shows ty e spec ok k (keys ++ ls, body) v := by
  obtain ⟨c, fs, obj, ls, h1, ho, h2, h4, h3⟩ := hv
  have hdep : depthF fs < depth := by
    cases h2 <;> simp [Val.depth] at hd <;> omega
  refine ⟨c, fs, ls, h2, fun addr ha => ?_⟩
  obtain ⟨h5, h3⟩ := h3 addr ha
  rw [← h5] at h3 h4 h1 ho ⊢
  obtain ⟨t, doc, h6, h8, h9, h10⟩ := hrec path level keys addr obj c fs f h3 hdep ht h4
  exact ⟨t, doc, h6, h8, h9, fun body hb => ⟨c, fs, obj, h1, ho, h2, h10 body hb⟩⟩

theorem levelText_fits {path level ty e spec ok k v} {f : Fld} (ht : IsIdent f.tag) (hz : v.isZero = false)
    (hv : BlockFits env ext ref own good ty e spec ok k [] v) (hd : v.depth ≤ depth) :
    ∃ t labels doc, levelText pe rec path (level + 1) e v = .ok t ∧ outOf f [] false t = [⟨f.tag, [], t, false⟩] ∧
      LineIs ⟨f.tag, [], t, false⟩ (.block f.tag labels doc) ∧
      ∀ body, Reads S doc body → BlockDisplays env ext ref shows ty e spec ok k (labels, body) v := by
  obtain ⟨c, fs, ls, h1, h3⟩ := blockFits_line hrec (path := path) (level := level) ht hv hd
  have main : ∀ addr, Passed v addr → levelText pe rec path (level + 1) e v = rec path (level + 1) [] addr c fs →
      ∃ t labels doc, levelText pe rec path (level + 1) e v = .ok t ∧ outOf f [] false t = [⟨f.tag, [], t, false⟩] ∧
      LineIs ⟨f.tag, [], t, false⟩ (.block f.tag labels doc) ∧
      ∀ body, Reads S doc body → BlockDisplays env ext ref shows ty e spec ok k (labels, body) v := by
    intro addr ha he
    obtain ⟨t, doc, h4, h5, h6, h7⟩ := h3 addr ha
    exact ⟨t, _, doc, he.trans h4, h5, h6, h7⟩
  cases h1 with
  | struct => exact main false trivial (by simp only [levelText, hz, Bool.false_eq_true, if_false])
  | _ => exact main true rfl (by simp only [levelText, hz, Bool.false_eq_true, if_false])

theorem elemText_fits {path level ty e spec ok k keys v} {f : Fld} (ht : IsIdent f.tag)
    (hv : BlockFits env ext ref own good ty e spec ok k keys v) (hd : v.depth ≤ depth) :
    ∃ t labels doc, elemText env pe rec path (level + 1) keys e v = .ok t ∧ outOf f keys false t = [⟨f.tag, keys, t, false⟩] ∧
      LineIs ⟨f.tag, keys, t, false⟩ (.block f.tag (keys ++ labels) doc) ∧
      ∀ body, Reads S doc body → BlockDisplays env ext ref shows ty e spec ok k (keys ++ labels, body) v := by
  obtain ⟨c, fs, ls, h1, h3⟩ := blockFits_line hrec (path := path) (level := level) ht hv hd
  cases h1 with
  | struct =>
    obtain ⟨t, doc, h4, h5, h6, h7⟩ := h3 false trivial
    exact ⟨t, _, doc, h4, h5, h6, h7⟩
  | ptr =>
    obtain ⟨t, doc, h4, h5, h6, h7⟩ := h3 true rfl
    exact ⟨t, _, doc, h4, h5, h6, h7⟩
  | any =>
    obtain ⟨t, doc, h4, h5, h6, h7⟩ := h3 true rfl
    exact ⟨t, _, doc, h4, h5, h6, h7⟩
  | iface hi =>
    obtain ⟨t, doc, h4, h5, h6, h7⟩ := h3 true rfl
    exact ⟨t, _, doc, h4, h5, h6, h7⟩

theorem sliceOuts_fits {path level ty e spec} {f : Fld} (ht : IsIdent f.tag) :
    ∀ {l : List Val} {j : Nat}, (∀ x ∈ l.zipIdx j, (¬ x.1.Zero ∧ BlockFits env ext ref own good ty e spec (fun _ _ => True) x.2 [] x.1) ∧ x.1.depth ≤ depth) →
    ∃ os io, sliceOuts pe rec path level f e l = .ok os ∧ Lines S os io f.tag (fun bl =>
      List.Forall₂ (fun blk x => BlockDisplays env ext ref shows ty e spec (fun _ _ => True) blk.2 blk.1 x) (bl.zipIdx j) l)
  | [], j, _ => ⟨[], [], rfl, .nil .nil⟩
  | v :: l, j, h => by
    rw [List.zipIdx_cons] at h
    obtain ⟨⟨hz, hv⟩, hd⟩ := h (v, j) (by simp)
    obtain ⟨t, labels, doc, h1, h2, h3, h4⟩ :=
      levelText_fits hrec (pe := pe) (path := path ++ [f.name, List.replicate l.length 0]) (level := level) ht (isZero_false.2 hz) hv hd
    obtain ⟨os, io, h5, h6⟩ := sliceOuts_fits (path := path) (level := level) (e := e) ht (l := l) (j := j + 1)
      (fun x hx => h x (List.mem_cons_of_mem _ hx))
    refine ⟨_, _, ?_, Lines.cons h3 h6 fun body bl hb hbl => ?_⟩
    · simp only [sliceOuts, h1, h5, h2, Except.map]
      rfl
    · rw [List.zipIdx_cons]
      exact .cons (h4 body hb) hbl

theorem mapOuts_fits {κ : Type} [DecidableEq κ] {path level ty e spec} {ok : κ → List Bytes → Nat → Prop} {f : Fld} (ht : IsIdent f.tag)
    {labelsOf : κ → List Bytes} {m : List (κ × Val)} :
    ∀ {l : List (κ × Val)}, (∀ x ∈ l, GoMap.get? m x.1 = some x.2 ∧
      BlockFits env ext ref own good ty e spec (ok x.1) 0 (labelsOf x.1) x.2 ∧ x.2.depth ≤ depth) →
    ∃ os io, mapOuts env pe rec path level f e labelsOf m (l.map Prod.fst) = .ok os ∧
      Lines S os io f.tag (fun bl => List.Forall₂ (fun blk x => BlockDisplays env ext ref shows ty e spec (ok x.1) 0 blk x.2 ∧
        ∃ ls, blk.1 = labelsOf x.1 ++ ls) bl l)
  | [], _ => ⟨[], [], rfl, .nil .nil⟩
  | (k, v) :: l, h => by
    obtain ⟨hg, hv, hd⟩ := h (k, v) (by simp)
    obtain ⟨t, ls, doc, h1, h2, h3, h4⟩ :=
      elemText_fits hrec (pe := pe) (path := path ++ f.name :: labelsOf k) (level := level) ht hv hd
    obtain ⟨os, io, h5, h6⟩ := mapOuts_fits (path := path) (level := level) (e := e) (labelsOf := labelsOf) (m := m) ht (l := l) (fun x hx => h x (by simp [hx]))
    refine ⟨_, _, ?_, Lines.cons h3 h6 fun body bl hb hbl => .cons ⟨h4 body hb, ls, rfl⟩ hbl⟩
    simp only [List.map_cons, mapOuts, hg, h1, h5, h2, Except.map]
    rfl

theorem map_fits {κ : Type} [DecidableEq κ] {path level ty e spec} {ok : κ → List Bytes → Nat → Prop} {f : Fld} (ht : IsIdent f.tag)
    {labelsOf : κ → List Bytes} {m : List (κ × Val)}
    {lt : κ → κ → Bool} (hlt : Det.LinLt lt) (hs : m.Pairwise fun x y => lt x.1 y.1 = true) (hne : m ≠ [])
    (hm : ∀ x ∈ m, BlockFits env ext ref own good ty e spec (ok x.1) 0 (labelsOf x.1) x.2 ∧ x.2.depth ≤ depth) {ks : List κ} (hp : ks.Perm (GoMap.keys m)) :
    ∃ os io, mapOuts env pe rec path level f e labelsOf m ks = .ok os ∧
      Lines S os io f.tag (fun bl => bl ≠ [] ∧ ∃ l, l.Perm m ∧ List.Forall₂ (fun blk x =>
        BlockDisplays env ext ref shows ty e spec (ok x.1) 0 blk x.2 ∧ ∃ ls, blk.1 = labelsOf x.1 ++ ls) bl l) := by
  obtain ⟨l, h1, rfl⟩ := perm_lift (g := Prod.fst) hp rfl
  obtain ⟨os, io, h2, h3⟩ := mapOuts_fits hrec (pe := pe) (path := path) (level := level) (m := m) ht (l := l) (labelsOf := labelsOf) (e := e)
    (fun x hx => ⟨sorted_get hlt hs (h1.mem_iff.1 hx), hm x (h1.mem_iff.1 hx)⟩)
  refine ⟨os, io, h2, ⟨h3.lines, h3.keys, h3.attrs, fun bl hb => ?_⟩⟩
  have := h3.means bl hb
  refine ⟨?_, l, h1, this⟩
  intro e
  rw [e] at this
  cases this
  exact hne (List.nil_perm.1 h1)

omit hrec in
theorem holds_loop {e : Ty} {c fs v} (h : Holds env e c fs v) : isLoop e v = true := by
  cases h <;> rfl

omit hrec in
/-- The first value of a map decides that there are blocks. -/
theorem first_loop {κ : Type} [DecidableEq κ] {ty e spec} {ok : κ → List Bytes → Nat → Prop} {labelsOf : κ → List Bytes} {m : List (κ × Val)}
    {lt : κ → κ → Bool} (hs : m.Pairwise fun x y => lt x.1 y.1 = true) (hne : m ≠ []) (hlt : Det.LinLt lt) {ks : List κ}
    (hp : ks.Perm (GoMap.keys m)) (hm : ∀ x ∈ m, BlockFits env ext ref own good ty e spec (ok x.1) 0 (labelsOf x.1) x.2) :
    isLoop e ((ks.head?.bind (GoMap.get? m)).getD (.leaf 0)) = true := by
  obtain ⟨l, h1, rfl⟩ := perm_lift (g := Prod.fst) hp rfl
  cases l with
  | nil => exact absurd (List.nil_perm.1 h1) hne
  | cons x l =>
    have hx : x ∈ m := h1.mem_iff.1 (by simp)
    obtain ⟨c, fs, _, _, _, _, hh, _⟩ := hm x hx
    simpa [sorted_get hlt hs hx] using holds_loop hh

/-- The lines of a field for blocks. -/
theorem outlier_fits (hz : ZeroOkI ext) (hpo : ∀ p l, (pe.ord p l).Perm l) (hpo2 : ∀ p l, (pe.ord2 p l).Perm l)
    {path level addr spec} {f : Fld} {v : Val} (ht : IsIdent f.tag) (hv : BlocksFit env ext ref own good f.ty spec v)
    (hd : v.depth ≤ depth) :
    ∃ os io, outlier env pe rec path level addr f v = .ok os ∧ Lines S os io f.tag (fun bl => BlocksDisplay env ext ref shows f.ty spec bl v) := by
  have hnil : ∀ {ty : Ty}, ext.zero ty = .leaf 0 → Lines S [] [] f.tag (fun bl => BlocksDisplay env ext ref shows ty spec bl (.leaf 0)) :=
    fun h => .nil (Or.inl ⟨rfl, h.symm⟩)
  have hone : ∀ {ty : Ty}, f.ty = ty → (∀ (x : List Bytes × Body) , BlockDisplays env ext ref shows ty ty spec (fun _ _ => True) 0 x v →
        BlocksDisplay env ext ref shows ty spec [x] v) →
      outlier env pe rec path level addr f v = (levelText pe rec (path ++ [f.name]) (level + 1) f.ty v).map (outOf f [] false) →
      ext.zero ty = .leaf 0 → (v = .leaf 0 ∨ BlockFits env ext ref own good ty ty spec (fun _ _ => True) 0 [] v) →
      (∀ c, ty ≠ .struct c) →
      ∃ os io, outlier env pe rec path level addr f v = .ok os ∧ Lines S os io f.tag (fun bl => BlocksDisplay env ext ref shows ty spec bl v) := by
    intro ty hty hmk ho hz0 hv hni
    rcases hv with rfl | hv
    · refine ⟨[], [], ?_, hnil hz0⟩
      rw [ho]
      simp only [levelText, Val.isZero, decide_true, if_true, Except.map]
      rfl
    · have hzv : v.isZero = false := by
        obtain ⟨c', fs, _, _, _, _, h2, _⟩ := hv
        cases h2 with
        | struct => exact absurd rfl (hni _)
        | _ => rfl
      obtain ⟨t, labels, doc, h4, h5, h6, h7⟩ := levelText_fits hrec (pe := pe) (path := path ++ [f.name]) (level := level) ht hzv hv hd
      refine ⟨_, _, by rw [ho, hty]; simp only [h4, Except.map, h5], Lines.cons h6 (.nil (meaning := fun bl => bl = []) rfl) ?_⟩
      rintro body bl hb rfl
      exact hmk _ (h7 body hb)
  generalize hty : f.ty = ty at hv ⊢
  match ty, hv with
  | .struct c, hv =>
    obtain ⟨hz0, hv⟩ := hv
    obtain ⟨c', fs, ls, h1, h3⟩ := blockFits_line hrec (path := path ++ [f.name]) (level := level) ht hv hd
    cases h1
    cases haddr : addr with
    | true =>
      obtain ⟨t, doc, h4, h5, h6, h7⟩ := h3 true trivial
      refine ⟨_, _, by simp only [outlier, hty, Ty.coll, if_true, h4, Except.map, h5], Lines.cons h6 (.nil (meaning := fun bl => bl = []) rfl) ?_⟩
      rintro body bl hb rfl
      exact Or.inr ⟨by simp, _, rfl, h7 body hb⟩
    | false =>
      cases hzv : (Val.inst c fs).isZero with
      | true =>
        refine ⟨[], [], ?_, .nil (Or.inl ⟨rfl, hz0 (isZero_iff.1 hzv)⟩)⟩
        simp only [outlier, hty, Ty.coll, Bool.false_eq_true, if_false, levelText, hzv, if_true, Except.map]
        rfl
      | false =>
        obtain ⟨t, doc, h4, h5, h6, h7⟩ := h3 false trivial
        refine ⟨_, _, by simp only [outlier, hty, Ty.coll, Bool.false_eq_true, if_false, levelText, hzv, h4, Except.map, h5],
          Lines.cons h6 (.nil (meaning := fun bl => bl = []) rfl) ?_⟩
        rintro body bl hb rfl
        exact Or.inr ⟨by simp, _, rfl, h7 body hb⟩
  | .ptr (.struct c), hv =>
    exact hone hty (fun x hx => Or.inr ⟨by simp, x, rfl, hx⟩) (by simp only [outlier, hty, Ty.coll]) (hz.ptr _) hv (by simp)
  | .any, hv =>
    exact hone hty (fun x hx => Or.inr ⟨by simp, x, rfl, hx⟩) (by simp only [outlier, hty, Ty.coll]) hz.any hv (by simp)
  | .iface i, hv =>
    exact hone hty (fun x hx => Or.inr ⟨by simp, x, rfl, hx⟩) (by simp only [outlier, hty, Ty.coll]) (hz.iface _) hv (by simp)
  | .slice e, hv =>
    rcases hv with rfl | ⟨l, hne, rfl, hl⟩
    · exact ⟨[], [], by simp only [outlier, hty, Ty.coll], hnil (hz.slice _)⟩
    · obtain ⟨os, io, h1, h2⟩ := sliceOuts_fits hrec (pe := pe) (path := path) (level := level) ht (l := l) (j := 0)
        (fun x hx => ⟨hl x hx, Nat.le_trans (depth_memL (List.fst_mem_of_mem_zipIdx hx)) hd⟩)
      refine ⟨os, io, ?_, ⟨h2.lines, h2.keys, h2.attrs, fun bl hb => ?_⟩⟩
      · cases l with
        | nil => exact absurd rfl hne
        | cons x l =>
          obtain ⟨_, _, _, _, _, _, _, hh, _⟩ := hl (x, 0) (by simp [List.zipIdx_cons])
          simp only [outlier, hty, Ty.coll, holds_loop hh, if_true, h1]
      · have h3 := h2.means bl hb
        refine Or.inr ⟨?_, l, rfl, h3⟩
        intro e
        rw [e] at h3
        cases h3
        exact hne rfl
  | .map .str e, hv =>
    rcases hv with rfl | ⟨m, hne, rfl, hs, hm⟩
    · exact ⟨[], [], by simp only [outlier, hty, Ty.coll], hnil (hz.map _ _)⟩
    · obtain ⟨os, io, h1, h2⟩ := map_fits hrec (pe := pe) (path := path) (level := level) (labelsOf := fun k => [k]) (ok := fun _ _ _ => True) ht Det.ltB_lin hs hne
        (fun x hx => ⟨hm x hx, Nat.le_trans (depth_mem hx) hd⟩) (hpo (path ++ [f.name]) (GoMap.keys m))
      refine ⟨os, io, ?_, ⟨h2.lines, h2.keys, h2.attrs, fun bl hb => ?_⟩⟩
      · have hl := first_loop (ext := ext) (ref := ref) (ok := fun _ _ _ => True) (labelsOf := fun k => [k]) hs hne Det.ltB_lin (hpo (path ++ [f.name, f.name]) (GoMap.keys m)) hm
        cases m with
        | nil => exact absurd rfl hne
        | cons y m => simp only [outlier, hty, Ty.coll, hl, if_true, h1]
      · obtain ⟨h3, l, h4, h5⟩ := h2.means bl hb
        refine Or.inr ⟨h3, m, l, rfl, hs, h4, h5.imp ?_⟩
        rintro blk x ⟨⟨c, fs, obj, h6, _, h7⟩, ls, h8⟩
        exact ⟨c, fs, obj, h6, by rw [h8]; rfl, h7⟩
  | .map .str2 e, hv =>
    rcases hv with rfl | ⟨m, hne, rfl, hs, hm⟩
    · exact ⟨[], [], by simp only [outlier, hty, Ty.coll], hnil (hz.map _ _)⟩
    · obtain ⟨os, io, h1, h2⟩ := map_fits hrec (pe := pe) (path := path) (level := level) (labelsOf := pairLabels) ht Det.ltB2_lin hs hne
        (fun x hx => ⟨hm x hx, Nat.le_trans (depth_memP hx) hd⟩) (hpo2 (path ++ [f.name]) (GoMap.keys m))
      refine ⟨os, io, ?_, ⟨h2.lines, h2.keys, h2.attrs, fun bl hb => ?_⟩⟩
      · have hl := first_loop (ext := ext) (ref := ref) hs hne Det.ltB2_lin (hpo2 (path ++ [f.name, f.name]) (GoMap.keys m)) hm
        cases m with
        | nil => exact absurd rfl hne
        | cons y m => simp only [outlier, hty, Ty.coll, hl, if_true, h1]
      · obtain ⟨h3, l, h4, h5⟩ := h2.means bl hb
        exact Or.inr ⟨h3, m, l, rfl, hs, h4, h5.imp fun _ _ h => h.1⟩

theorem part_fits (hz : ZeroOkI ext) (hpo : ∀ p l, (pe.ord p l).Perm l) (hpo2 : ∀ p l, (pe.ord2 p l).Perm l)
    {path level addr keyname obj} {f : Fld} {v : Val} (h : SpecFld obj f) (ht : IsIdent f.tag)
    (hv : BlocksFit env ext ref own good f.ty (GoMap.get? obj f.name) v) (hd : v.depth ≤ depth) :
    ∃ os io, Part S env pe rec path level addr keyname f v (FreeFld obj f) (SpecFld obj f)
      (fun body => FieldDisplays env ext ref shows obj body f v) [] os io := by
  obtain ⟨os, io, h1, h2⟩ := outlier_fits hrec hz hpo hpo2 (path := path) (level := level) (addr := addr) ht hv hd
  have hcomp : ∀ {ty e spec ok k keys v}, BlockFits env ext ref own good ty e spec ok k keys v → e.isComposite = true := by
    rintro ty e spec ok k keys v ⟨c, fs, _, _, _, _, hh, _⟩
    cases hh <;> rfl
  have hx : fieldEntry f v = [⟨f, v, true⟩] := by
    have hc : f.ty.coll = f.ty ∧ passOf f.ty v = some true := by
      generalize f.ty = ty at hv
      match ty, hv with
      | .struct _, _ => exact ⟨rfl, rfl⟩
      | .ptr (.struct _), _ => exact ⟨rfl, rfl⟩
      | .any, _ => exact ⟨rfl, rfl⟩
      | .iface _, _ => exact ⟨rfl, rfl⟩
      | .slice e, hv =>
        refine ⟨rfl, ?_⟩
        rcases hv with rfl | ⟨l, hne, rfl, hl⟩
        · rfl
        · cases l with
          | nil => exact absurd rfl hne
          | cons x l => simp [passOf, hcomp (hl (x, 0) (by simp [List.zipIdx_cons])).2]
      | .map .str e, hv =>
        refine ⟨rfl, ?_⟩
        rcases hv with rfl | ⟨l, hne, rfl, _, hl⟩
        · rfl
        · cases l with
          | nil => exact absurd rfl hne
          | cons x l => simp [passOf, hcomp (hl x (by simp))]
      | .map .str2 e, hv =>
        refine ⟨rfl, ?_⟩
        rcases hv with rfl | ⟨l, hne, rfl, _, hl⟩
        · rfl
        · cases l with
          | nil => exact absurd rfl hne
          | cons x l => simp [passOf, hcomp (hl x (by simp))]
    simp [fieldEntry, hc.1, hc.2, withTag_id (ident_ne ht)]
  refine ⟨os, io, ?_, ?_, ?_, ?_, ?_, h2.lines, by simpa using h2.keys, by simp [h2.attrs], by simp [h2.attrs], fun _ => h, ?_⟩
  · simp [hx]
  · simp [hx]
  · rw [hx]
    simp only [collect, if_true, h1, Except.map, List.append_nil, partLabels, if_neg h.decodes.notLabel]
  · intro pad
    rw [hx]
    exact .nil
  · rw [hx]
    simp [plainOf]
  · intro body _ hb
    refine ⟨fun h' => absurd h'.what h.decodes.notLabel, fun h' => ?_, fun _ => h2.means _ hb, fun h' => ?_⟩
    · have := h'.isO.2.2.1
      rw [h.isO.2.2.1] at this
      cases this
    · have := h'.isO.2.2.1
      rw [h.isO.2.2.1] at this
      cases this

end

theorem Part.imp {env pe rec path level addr keyname f v ia os io} {A B A' B' : Prop} {Q Q' : Body → Prop}
    (h : Part S env pe rec path level addr keyname f v A B Q ia os io) (ha : A → A') (hb : B → B') (hq : ∀ body, Q body → Q' body) :
    Part S env pe rec path level addr keyname f v A' B' Q' ia os io :=
  ⟨h.len, h.fld, h.collect, h.plain, h.supp, h.outs, h.keys, h.one, fun x => ha (h.attrs x), fun x => hb (h.blocks x),
    fun body x y => hq _ (h.shows body x y)⟩

theorem isLoop_any {x : Val} (h : x.isStruct = false) : isLoop .any x = false := by
  cases x <;> simp_all [isLoop, Val.isStruct]

theorem any_shows {ext : Ext} {body : Body} {f : Fld} {v : Val} {as bs} (ha : body.attrs.filter (fun x => x.1 = f.tag) = as)
    (hb : body.blocks.filter (fun x => x.1 = f.tag) = bs)
    (h : match as.head?.map Prod.snd, bs.map Prod.snd with
      | some a, [] => Lit a.expr ∧ (∃ cv, evalE ext [] a.expr = .ok cv ∧ cv ≠ .null) ∧ GivesAny (fun h n => ext.dynAttr f.ty.isSlice h n a.src) v
      | none, [([], blk)] => GivesAny (fun h n => ext.dynBlock f.ty.isSlice h n blk) v
      | none, [] => v = ext.zero f.ty
      | _, _ => False) : AnyShows ext body f v := by
  unfold AnyShows
  rw [get?_filter, blocksOf, ha, hb]
  exact h

/-- A generic field. -/
theorem part_any {env : Env} {pe : PExt} {ext : Ext} {ref : GoMap Bytes Tmpl} {shows rec} (hz : ZeroOkI ext) {path level addr keyname obj} {f : Fld} {v : Val} (h : AnyFld obj f) (ht : IsIdent f.tag) (hv : AnyGood S pe ext f v) :
    ∃ os io, Part S env pe rec path level addr keyname f v (AnyFld obj f) (AnyFld obj f)
      (fun body => FieldDisplays env ext ref shows obj body f v) [] os io := by
  have hx : fieldEntry f v = [⟨f, v, true⟩] := by
    rcases h.ty with hty | hty <;> simp [fieldEntry, hty, Ty.coll, passOf, Ty.isComposite, withTag_id (ident_ne ht)]
  have hno : ∀ {body}, AnyShows ext body f v → FieldDisplays env ext ref shows obj body f v := by
    intro body hb
    refine ⟨fun h' => absurd h'.what h.decodes.notLabel, fun h' => ?_, fun h' => ?_, fun _ => hb⟩
    · have := h'.isO.2.2.2
      rw [h.isO.2.2.2] at this
      cases this
    · have := h'.isO.2.2.2
      rw [h.isO.2.2.2] at this
      cases this
  have main : ∀ os io, outlier env pe rec path level addr f v = .ok os → List.Forall₂ LineIs os io → (∀ i ∈ io, itemKey i = f.tag) →
      (Item.attrs io).length ≤ 1 → (∀ body : Body, ReadsA S (Item.attrs io) (body.attrs.filter fun x => x.1 = f.tag) →
        ReadsL S (Item.blocks io) (body.blocks.filter fun x => x.1 = f.tag) → AnyShows ext body f v) →
      Part S env pe rec path level addr keyname f v (AnyFld obj f) (AnyFld obj f) (fun body => FieldDisplays env ext ref shows obj body f v) [] os io := by
    intro os io h1 h2 h3 h4 h5
    refine ⟨by simp [hx], by simp [hx], ?_, ?_, ?_, h2, by simpa using h3, by simpa using h4, fun _ => h, fun _ => h, fun body ha hb => hno (h5 body ha hb)⟩
    · rw [hx]
      simp only [collect, if_true, h1, Except.map, List.append_nil, partLabels, if_neg h.decodes.notLabel]
    · intro pad
      rw [hx]
      exact .nil
    · rw [hx]
      simp [plainOf]
  rcases hv with rfl | hv
  · refine ⟨[], [], main [] [] ?_ .nil (by simp) (by simp [Item.attrs]) fun body ha hb => ?_⟩
    · rcases h.ty with hty | hty <;> simp [outlier, hty, Ty.coll]
    · simp only [Item.attrs, Item.blocks] at ha hb
      refine any_shows (as := []) (bs := []) ?_ ?_ ?_
      · cases hA : body.attrs.filter (fun x => x.1 = f.tag) with
        | nil => rfl
        | cons => rw [hA] at ha; cases ha
      · cases hB : body.blocks.filter (fun x => x.1 = f.tag) with
        | nil => rfl
        | cons => rw [hB] at hb; cases hb
      · rcases h.ty with hty | hty <;> simp [hty, hz.slice, hz.map]
  rcases h.ty with hty | hty
  · simp only [hty] at hv
    obtain ⟨x, l, rfl, hx', hk⟩ := hv
    obtain ⟨t, e, cv, h1, h2, h3, h4, h5, h6⟩ := hk level
    refine ⟨[⟨f.tag, [], t, true⟩], [.attr f.tag e], main _ _ ?_ (.cons ⟨?_, ?_⟩ .nil) (by simp [itemKey]) (by simp [Item.attrs]) fun body ha hb => ?_⟩
    · simp only [outlier, hty, Ty.coll, isLoop_any hx', Bool.false_eq_true, if_false, h1, Except.map, outOf, Tight.notBlank h2.last]
    · have := ItemOk.padded 0 (NameOk.ident ht) h2.expr
      have e' : b " = " ++ t = 32 :: (b "= " ++ t) := rfl
      rw [e'] at this
      simpa [outLine, labelText] using this
    · have := (Tight.append h2.last (b "= ")).append (f.tag ++ [32])
      simpa [outLine, labelText] using this
    · simp only [Item.attrs, Item.blocks] at ha hb
      cases hA : body.attrs.filter (fun x => x.1 = f.tag) with
      | nil => rw [hA] at ha; cases ha
      | cons a as =>
        rw [hA] at ha
        cases ha with
        | cons ha1 ha2 =>
          cases ha2
          refine any_shows (as := [a]) (bs := []) hA ?_ ?_
          · cases hB : body.blocks.filter (fun x => x.1 = f.tag) with
            | nil => rfl
            | cons => rw [hB] at hb; cases hb
          · obtain ⟨_, e1, e2⟩ := ha1
            dsimp only at e1 e2 ⊢
            simp only [List.head?_cons, Option.map_some, List.map_nil]
            rw [hty, e1]
            exact ⟨h3, ⟨cv, h4, h5⟩, h6 _ e2⟩
  · simp only [hty] at hv
    obtain ⟨x, m, rfl, hx', hk⟩ := hv
    obtain ⟨t, doc, h1, h2, h3⟩ := hk level
    refine ⟨[⟨f.tag, [], t, false⟩], [.block f.tag [] doc], main _ _ ?_ (.cons ⟨?_, ?_⟩ .nil) (by simp [itemKey]) (by simp [Item.attrs]) fun body ha hb => ?_⟩
    · have hl : isLoop .any (((pe.ord (path ++ [f.name, f.name]) (GoMap.keys (x :: m))).head?.bind (GoMap.get? (x :: m))).getD (.leaf 0)) = false := by
        refine isLoop_any ?_
        cases hg : (pe.ord (path ++ [f.name, f.name]) (GoMap.keys (x :: m))).head?.bind (GoMap.get? (x :: m)) with
        | none => rfl
        | some y =>
          obtain ⟨k, _, hk'⟩ := Option.bind_eq_some_iff.1 hg
          exact hx' _ (GoMap.get?_mem hk')
      simp only [outlier, hty, Ty.coll, hl, Bool.false_eq_true, if_false, h1, Except.map, outOf, Tight.notBlank h2.last, Ty.isIface, Bool.not_true]
    · have := h2.item f.tag ht
      simpa [outLine, labelText] using this
    · have := Tight.append h2.last (f.tag ++ [32])
      simpa [outLine, labelText] using this
    · simp only [Item.attrs, Item.blocks] at ha hb
      cases hB : body.blocks.filter (fun x => x.1 = f.tag) with
      | nil => rw [hB] at hb; cases hb
      | cons y ys =>
        rw [hB] at hb
        cases hb with
        | cons hb1 hb2 =>
          cases hb2
          refine any_shows (as := []) ?_ hB ?_
          · cases hA : body.attrs.filter (fun x => x.1 = f.tag) with
            | nil => rfl
            | cons => rw [hA] at ha; cases ha
          · rw [hty]
            exact h3 _ hb1

/-- If the structs in the fields are written as blocks, the struct is written as a document that shows it. -/
theorem fitsBy_rendered {env : Env} {emb : Nat} {pe : PExt} {ext : Ext} {ref : GoMap Bytes Tmpl} {own good shows rec N} (hz : ZeroOkI ext)
    (hpo : ∀ p l, (pe.ord p l).Perm l) (hpo2 : ∀ p l, (pe.ord2 p l).Perm l) (hrec : RecLines S own good shows N rec) (obj : List (Bytes × CVal)) :
    RecGood S env emb (FitsBy (AnyGood S pe ext) env emb pe ext ref own good obj) (DisplaysBy env emb ext ref shows obj) (N + 1) (marshalStruct env pe rec) := by
    intro path level keyname addr c fs h hd
    obtain ⟨hr, hemb, hnames, htags, hfld⟩ := h
    have hup : ∀ f ∈ (env.flat emb c).fields, f.upper = true := by
      intro f hf
      rcases hr.kinds f hf with h | h | h | h
      · exact h.upper
      · exact h.1.decodes.upper
      · exact h.decodes.upper
      · exact h.decodes.upper
    have hparts : ∀ f, ∃ v ia os io, f ∈ (env.flat emb c).fields → GoMap.get? fs f.name = some v ∧
        Part S env pe rec path level addr keyname f v (FreeFld obj f ∨ AnyFld obj f) (SpecFld obj f ∨ AnyFld obj f)
          (fun body => FieldDisplays env ext ref shows obj body f v) ia os io := by
      intro f
      by_cases hf : f ∈ (env.flat emb c).fields
      swap
      · exact ⟨.leaf 0, [], [], [], fun h => absurd h hf⟩
      obtain ⟨v, hg, hl, hp, hb, ha⟩ := hfld f hf
      obtain ⟨ht, hw⟩ := htags f hf
      have hdv : v.depth ≤ N := by
        have := depth_get hg
        omega
      rcases hr.kinds f hf with h | h | h | h
      · have := part_label (S := S) (env := env) (emb := emb) (pe := pe) (ext := ext) (shows := fun _ _ _ => True) (rec := rec) (path := path)
          (level := level) (addr := addr) (keyname := keyname) h ht (hw h) (hl h)
        exact ⟨v, _, _, _, fun _ => ⟨hg, this.imp (fun h' => absurd h.what h'.decodes.notLabel) (fun h' => absurd h.what h'.decodes.notLabel)
          fun body _ => ⟨hl, fun h' => absurd h.what h'.1.decodes.notLabel, fun h' => absurd h.what h'.decodes.notLabel,
            fun h' => absurd h.what h'.decodes.notLabel⟩⟩⟩
      · have hno : ¬ SpecFld obj f := fun h' => by
          have := h.isO.2.2.1
          rw [h'.isO.2.2.1] at this
          cases this
        have hno' : ¬ AnyFld obj f := fun h' => by
          have := h.isO.2.2.2
          rw [h'.isO.2.2.2] at this
          cases this
        obtain ⟨ia, os, io, this⟩ := part_plain (S := S) (env := env) (emb := emb) (pe := pe) (ext := ext) (shows := fun _ _ _ => True) (rec := rec) (path := path)
          (level := level) (addr := addr) (keyname := keyname) hz.toZeroOk h.1 ht (hp h)
        exact ⟨v, _, _, _, fun _ => ⟨hg, this.imp (fun _ => Or.inl h) (fun h' => absurd h' (not_plain_block h.1))
          fun body hb => ⟨hl, fun _ => hb.plain h.1, fun h' => absurd h' hno, fun h' => absurd h' hno'⟩⟩⟩
      · obtain ⟨os, io, this⟩ := part_fits hrec hz hpo hpo2 (path := path) (level := level) (addr := addr) (keyname := keyname) h ht (hb h) hdv
        exact ⟨v, _, _, _, fun _ => ⟨hg, this.imp Or.inl Or.inl fun _ h => h⟩⟩
      · obtain ⟨os, io, this⟩ := part_any hz (path := path) (level := level) (addr := addr) (keyname := keyname) h ht (ha h)
        exact ⟨v, _, _, _, fun _ => ⟨hg, this.imp Or.inr Or.inr fun _ h => h⟩⟩
    obtain ⟨t, h1, h2⟩ := parts_rendered hemb hr.names hr.tags hup (fun f hf => (htags f hf).1) hparts
    exact ⟨t, h1, h2.imp fun body hb => ⟨hr, hnames, hb.1, hb.2.1, hb.2.2.1, hb.2.2.2⟩⟩

theorem RecGood.lines {env : Env} {emb : Nat} {good : List (Bytes × CVal) → Nat → Fields → Prop}
    {shows : List (Bytes × CVal) → Body → Nat → Fields → Prop} {N : Nat} {rec : PRec} (h : ∀ obj, RecGood S env emb (good obj) (shows obj) N rec) :
    RecLines S (fun _ c => writtenLabels (env.flat emb c)) (fun _ obj labels c fs => good obj c fs ∧ LabelsAre (env.flat emb c) fs labels) (AndLabels env emb shows) N rec := by
  intro path level keys addr obj c fs f hg hd ht hs
  obtain ⟨t, h6, h7⟩ := h obj path (level + 1) keys addr c fs hg.1 hd
  obtain ⟨h8, doc, h9, h10⟩ := rendered_line ht hs h7
  exact ⟨t, doc, h6, h8, h9, fun body hb => ⟨h10 body hb, hg.2⟩⟩

/-- What is written for a struct that fits the specification shows it. -/
theorem fits_rendered {env : Env} {emb : Nat} {pe : PExt} {ext : Ext} {ref : GoMap Bytes Tmpl} (hz : ZeroOkI ext)
    (hpo : ∀ p l, (pe.ord p l).Perm l) (hpo2 : ∀ p l, (pe.ord2 p l).Perm l) :
    ∀ n N obj, RecGood S env emb (Fits S env emb pe ext ref n obj) (Displays env emb ext ref n obj) N (marshalN env pe N)
  | 0, N, obj => fun path level keyname addr c fs h _ => h.elim
  | n + 1, 0, obj => fun path level keyname addr c fs _ hd => absurd hd (by omega)
  | n + 1, N + 1, obj => fitsBy_rendered hz hpo hpo2 (RecGood.lines fun obj => fits_rendered hz hpo hpo2 n N obj) obj

end Verif.HclS
