import Mathlib.Data.List.Forall2
import Mathlib.Data.List.Pairwise
import Verif.Lemmas.HclStructState
import Verif.Spec.HclStructDoc
/-!
# Decoding of documents that write a struct out
-/
set_option linter.unusedSimpArgs false

namespace Verif.Det
variable {κ α : Type} [DecidableEq κ] {lt : κ → κ → Bool}

theorem insertK_append (hl : LinLt lt) {k : κ} {v : α} : ∀ {acc : List (κ × α)}, (∀ a ∈ acc, lt a.1 k = true) →
    insertK lt k v acc = acc ++ [(k, v)]
  | [], _ => rfl
  | (k', v') :: acc, h => by
    have h1 : lt k' k = true := h (k', v') (by simp)
    have hne : k ≠ k' := by
      intro e; subst e
      rw [hl.irrefl] at h1; cases h1
    have h2 : ¬ lt k k' = true := by
      intro h2
      have := hl.trans _ _ _ h1 h2
      rw [hl.irrefl] at this; cases this
    rw [insertK, if_neg hne, if_neg h2, insertK_append hl (fun a ha => h a (by simp [ha]))]
    rfl

theorem foldl_insertK_sorted (hl : LinLt lt) : ∀ {m acc : List (κ × α)}, m.Pairwise (fun x y => lt x.1 y.1 = true) →
    (∀ a ∈ acc, ∀ x ∈ m, lt a.1 x.1 = true) → m.foldl (fun m e => insertK lt e.1 e.2 m) acc = acc ++ m
  | [], acc, _, _ => by simp
  | (k, v) :: m, acc, hs, ha => by
    rw [List.pairwise_cons] at hs
    rw [List.foldl_cons, insertK_append hl (fun a h => ha a h (k, v) (by simp)), foldl_insertK_sorted hl hs.2]
    · simp
    · intro a h x hx
      rcases List.mem_append.1 h with h | h
      · exact ha a h x (by simp [hx])
      · rw [List.mem_singleton.1 h]; exact hs.1 x hx

/-- Storing the entries of a sorted map in any order gives the map. -/
theorem foldl_insertK_perm (hl : LinLt lt) {l m : List (κ × α)} (hp : l.Perm m) (hs : m.Pairwise fun x y => lt x.1 y.1 = true) :
    l.foldl (fun m e => insertK lt e.1 e.2 m) [] = m := by
  have hne : ∀ x ∈ l, ∀ y ∈ l, x = y ∨ x.1 ≠ y.1 := by
    have hpw : l.Pairwise fun x y => x.1 ≠ y.1 := by
      refine (hp.pairwise_iff (fun {x y} h => Ne.symm h)).2 (hs.imp ?_)
      intro x y h e
      rw [e, hl.irrefl] at h; cases h
    intro x hx y hy
    by_cases e : x = y
    · exact Or.inl e
    · have : Std.Symm fun x y : κ × α => x.1 ≠ y.1 := ⟨fun _ _ h => Ne.symm h⟩
      exact Or.inr (hpw.forall hx hy e)
  rw [hp.foldl_eq' (fun x hx y hy z => ?_), foldl_insertK_sorted hl hs (by simp)]
  · simp
  · rcases hne x hx y hy with e | e
    · subst e; rfl
    · exact (insertK_comm hl (Ne.symm e) _ _ _)

end Verif.Det

namespace Verif.HclS
open Tree (Heap Le Walk)
open Hcl (Cty Expr)
open Det (Cls CVal KeyTy insertK ltB ltB2)

/-! ## The fields -/

/-- How a field given by blocks is decoded. -/
inductive Slot (env : Env) : Ty → Nat → Bytes → CVal → Prop where
  | single {t c} : t.structOf = some c → Slot env t c (env.struct c).str (.single (.mk (env.struct c).str []))
  | slice {e c} : e.structOf = some c → Slot env (.slice e) c (env.tyStr e) (.list [.mk (env.tyStr e) []])
  | map {e c} : e.structOf = some c → Slot env (.map .str e) c (env.tyStr e) (.list [.mk (env.tyStr e) []])
  | map2 {e c} : e.structOf = some c → Slot env (.map .str2 e) c (env.tyStr e) (.map2 [([], [([], .mk (env.tyStr e) [])])])

theorem elemKind_struct {env ext} {e : Ty} {c} (h : e.structOf = some c) :
    elemKind env ext e = .cls (env.tyStr e) (newOf env ext (.struct c)) := by
  cases e with
  | struct d => cases h; rfl
  | ptr t => cases t <;> first | (cases h; rfl) | cases h
  | _ => cases h

theorem addTagged_block {env} (ext) {f : Fld} (h : f.ty.isBlock = true) : ∃ c nm v, Slot env f.ty c nm v ∧
    ∀ lf : LF, lf.addTagged env ext f = lf.addOri f nm (newOf env ext (.struct c)) v := by
  obtain ⟨name, upper, rawTag, ty⟩ := f
  simp only at h ⊢
  match ty, h with
  | .struct c, _ => exact ⟨_, _, _, .single rfl, fun lf => rfl⟩
  | .ptr (.struct c), _ => exact ⟨_, _, _, .single rfl, fun lf => rfl⟩
  | .slice (.struct c), _ => exact ⟨_, _, _, .slice rfl, fun lf => rfl⟩
  | .slice (.ptr (.struct c)), _ => exact ⟨_, _, _, .slice rfl, fun lf => rfl⟩
  | .map .str (.struct c), _ => exact ⟨_, _, _, .map rfl, fun lf => rfl⟩
  | .map .str (.ptr (.struct c)), _ => exact ⟨_, _, _, .map rfl, fun lf => rfl⟩
  | .map .str2 (.struct c), _ => exact ⟨_, _, _, .map2 rfl, fun lf => rfl⟩
  | .map .str2 (.ptr (.struct c)), _ => exact ⟨_, _, _, .map2 rfl, fun lf => rfl⟩

theorem addTagged_plain (env ext) {f : Fld} (h : f.ty.isPlain = true) (lf : LF) :
    lf.addTagged env ext f = { lf with news := lf.news ++ [f] } := by
  obtain ⟨name, upper, rawTag, ty⟩ := f
  simp only at h
  cases ty with
  | str => rfl
  | leaf i => rfl
  | slice e => cases e <;> first | rfl | cases h
  | map k e => cases k <;> cases e <;> first | rfl | cases h
  | struct c => cases h
  | any => cases h
  | iface i => cases h
  | ptr t => cases t <;> first | rfl | cases h

theorem plain_notBlock {t : Ty} (h : t.isPlain = true) : t.isBlock = false := by
  cases t with
  | slice e => cases e <;> first | rfl | cases h
  | map k e => cases k <;> cases e <;> first | rfl | cases h
  | ptr t => cases t <;> first | rfl | cases h
  | _ => first | rfl | cases h

theorem required_lack {f : Fld} (h : required f = true) : ¬ f.mayLack := by
  rintro (h' | ⟨t, h'⟩) <;> simp [required, h'] at h

/-- Whether a field is for a label, for an attribute, for blocks. -/
def isLabelF (f : Fld) : Bool := lower f.what = b "label"
def isPlainF (f : Fld) : Bool := !isLabelF f && f.ty.isPlain
def isBlockF (f : Fld) : Bool := !isLabelF f && f.ty.isBlock

theorem LabelFld.is {f} (h : LabelFld f) : isLabelF f = true ∧ isPlainF f = false ∧ isBlockF f = false := by
  have : isLabelF f = true := by simp [isLabelF, h.what]
  simp [isPlainF, isBlockF, this]

theorem PlainFld.is {f} (h : PlainFld f) : isLabelF f = false ∧ isPlainF f = true ∧ isBlockF f = false := by
  have : isLabelF f = false := by simp [isLabelF, h.decodes.notLabel]
  simp [isPlainF, isBlockF, this, h.ty, plain_notBlock h.ty]

theorem BlockFld.is {f} (h : BlockFld f) : isLabelF f = false ∧ isPlainF f = false ∧ isBlockF f = true := by
  have h1 : isLabelF f = false := by simp [isLabelF, h.decodes.notLabel]
  have h2 : f.ty.isPlain = false := by
    cases hp : f.ty.isPlain
    · rfl
    · have := plain_notBlock hp; rw [h.ty] at this; cases this
  simp [isPlainF, isBlockF, h1, h.ty, h2]

def Kinds (f : Fld) : Prop := LabelFld f ∨ PlainFld f ∨ BlockFld f

theorem Kinds.label {f} (h : Kinds f) (hl : isLabelF f = true) : LabelFld f := by
  rcases h with h | h | h
  · exact h
  · rw [h.is.1] at hl; cases hl
  · rw [h.is.1] at hl; cases hl

theorem Kinds.plain {f} (h : Kinds f) (hl : isPlainF f = true) : PlainFld f := by
  rcases h with h | h | h
  · rw [h.is.2.1] at hl; cases hl
  · exact h
  · rw [h.is.2.1] at hl; cases hl

theorem Kinds.block {f} (h : Kinds f) (hl : isBlockF f = true) : BlockFld f := by
  rcases h with h | h | h
  · rw [h.is.2.2] at hl; cases hl
  · rw [h.is.2.2] at hl; cases hl
  · exact h

theorem Kinds.tagged {f} (h : Kinds f) : lower f.what = b "label" ∨ f.tag ≠ [] := by
  rcases h with h | h | h
  · exact .inl h.what
  · exact .inr h.decodes.tag
  · exact .inr h.decodes.tag

/-- What `loopFields` finds. -/
structure Sorts (env : Env) (ext : Ext) (fields : List Fld) (lf lf' : LF) : Prop where
  labels : lf'.labels = lf.labels ++ fields.filter isLabelF
  news : lf'.news = lf.news ++ fields.filter isPlainF
  oris : lf'.oris = lf.oris ++ fields.filter isBlockF
  decs : lf'.decs = lf.decs
  slots : ∀ f ∈ fields, BlockFld f → ∃ c nm v, Slot env f.ty c nm v ∧ GoMap.get? lf'.obj f.name = some v ∧
    GoMap.get? lf'.ref nm = some (newOf env ext (.struct c))

theorem Slot.entry {env} (ext) {t c nm v} (h : Slot env t c nm v) : TypeEntry env ext nm (newOf env ext (.struct c)) := by
  have he : ∀ {e : Ty}, e.structOf = some c → TypeEntry env ext (env.tyStr e) (newOf env ext (.struct c)) := by
    intro e he
    cases e with
    | struct d => cases he; exact .struct _
    | ptr t => cases t <;> first | (cases he; exact .ptr (.struct _)) | cases he
    | _ => cases he
  cases h with
  | single h => exact .struct c
  | slice h => exact he h
  | map h => exact he h
  | map2 h => exact he h

theorem loopList_sorts {env ext deep} (hd : Deep deep) (hst : ∀ fs lf lf', deep fs lf = .ok lf' → RefStep env ext lf.ref lf'.ref) :
    ∀ {fields : List Fld} {lf : LF}, (∀ f ∈ fields, Kinds f) → (fields.map Fld.name).Nodup →
      (∀ f ∈ fields, GoMap.get? lf.obj f.name = none) → Canonical env ext lf.ref →
      ∃ lf', loopList env ext [] deep fields lf = .ok lf' ∧ Sorts env ext fields lf lf'
  | [], lf, _, _, _, _ => ⟨lf, rfl, by simp, by simp, by simp, rfl, fun f hf => by cases hf⟩
  | f :: fields, lf, hk, hn, ho, hc => by
    rw [List.map_cons, List.nodup_cons] at hn
    have hk' := fun g hg => hk g (List.mem_cons_of_mem _ hg)
    have hne : ∀ g ∈ fields, g.name ≠ f.name := fun g hg e => hn.1 (e ▸ List.mem_map.2 ⟨g, hg, rfl⟩)
    have ho' := fun g hg => ho g (List.mem_cons_of_mem _ hg)
    rcases hk f (by simp) with h | h | h
    · obtain ⟨lf', h1, h2⟩ := loopList_sorts hd hst (fields := fields) (lf := { lf with labels := lf.labels ++ [f] }) hk' hn.2 ho' hc
      refine ⟨lf', ?_, ?_⟩
      · rw [loopList, if_neg (by simp [h.upper]), if_neg (by simp), if_pos h.what]; exact h1
      · refine ⟨?_, ?_, ?_, h2.decs, ?_⟩
        · rw [h2.labels]; simp [h.is]
        · rw [h2.news]; simp [h.is]
        · rw [h2.oris]; simp [h.is]
        · intro g hg hb
          rcases List.mem_cons.1 hg with rfl | hg
          · have := hb.is.1; rw [h.is.1] at this; cases this
          · exact h2.slots g hg hb
    · obtain ⟨lf', h1, h2⟩ := loopList_sorts hd hst (fields := fields) (lf := lf.addTagged env ext f) hk' hn.2
        (by rw [addTagged_plain _ _ h.ty]; exact ho') (by rw [addTagged_plain _ _ h.ty]; exact hc)
      refine ⟨lf', ?_, ?_⟩
      · rw [loopList, if_neg (by simp [h.decodes.upper]), if_neg (by simp), if_neg h.decodes.notLabel,
          if_neg (by rw [tag_noSuffix]; simpa using h.decodes.notDash), if_neg (by rw [ho f (by simp)]; simp),
          if_neg h.decodes.tag]
        exact h1
      · rw [addTagged_plain _ _ h.ty] at h2
        refine ⟨?_, ?_, ?_, h2.decs, ?_⟩
        · rw [h2.labels]; simp [h.is]
        · rw [h2.news]; simp [h.is]
        · rw [h2.oris]; simp [h.is]
        · intro g hg hb
          rcases List.mem_cons.1 hg with rfl | hg
          · have := hb.is.2.1; rw [h.is.2.1] at this; cases this
          · exact h2.slots g hg hb
    · obtain ⟨c, nm, v, hs, he⟩ := addTagged_block (env := env) ext h.ty
      have hc2 : Canonical env ext (lf.addTagged env ext f).ref := (addTagged_step lf f).canonical hc
      obtain ⟨lf', h1, h2⟩ := loopList_sorts hd hst (fields := fields) (lf := lf.addTagged env ext f) hk' hn.2
        (by
          intro g hg
          rw [he]
          simp only [LF.addOri, GoMap.get?_set]
          rw [if_neg (Ne.symm (hne g hg))]
          exact ho' g hg) hc2
      refine ⟨lf', ?_, ?_⟩
      · rw [loopList, if_neg (by simp [h.decodes.upper]), if_neg (by simp), if_neg h.decodes.notLabel,
          if_neg (by rw [tag_noSuffix]; simpa using h.decodes.notDash), if_neg (by rw [ho f (by simp)]; simp),
          if_neg h.decodes.tag]
        exact h1
      · have hl := h2.labels
        have hw := h2.news
        have hor := h2.oris
        have hde := h2.decs
        rw [he] at hl hw hor hde
        refine ⟨?_, ?_, ?_, hde, ?_⟩
        · rw [hl]; simp [h.is, LF.addOri]
        · rw [hw]; simp [h.is, LF.addOri]
        · rw [hor]; simp [h.is, LF.addOri]
        · intro g hg hb
          rcases List.mem_cons.1 hg with rfl | hg
          · refine ⟨c, nm, v, hs, ?_, ?_⟩
            · refine (loopList_grows hd.grows _ _ _ h1).obj _ _ ?_
              rw [he]; simp [LF.addOri, GoMap.get?_set]
            · refine (loopList_step hst _ _ _ h1).le hc2 _ _ ?_
              rw [he]; simp [LF.addOri, GoMap.get?_set]
          · exact h2.slots g hg hb

theorem loopFields_sorts {env ext} (n) {fields : List Fld} {lf : LF} (hk : ∀ f ∈ fields, Kinds f) (hn : (fields.map Fld.name).Nodup)
    (ho : ∀ f ∈ fields, GoMap.get? lf.obj f.name = none) (hc : Canonical env ext lf.ref) :
    ∃ lf', loopFields env ext [] n fields lf = .ok lf' ∧ Sorts env ext fields lf lf' := by
  cases n with
  | zero => exact loopList_sorts deep_hang (fun _ _ _ h => by cases h) hk hn ho hc
  | succ n => exact loopList_sorts (deep_loopFields n) (loopFields_step n) hk hn ho hc

/-! ## Attributes -/

theorem hasTag_iff {fs : List Fld} {k : Bytes} : hasTag fs k = true ↔ ∃ f ∈ fs, f.tag = k := by
  simp [hasTag]

theorem map_inj {α β : Type} {g : α → β} : ∀ {l : List α}, (l.map g).Nodup → ∀ {x y}, x ∈ l → y ∈ l → g x = g y → x = y
  | [], _, _, _, hx, _, _ => by cases hx
  | a :: l, hn, x, y, hx, hy, e => by
    rw [List.map_cons, List.nodup_cons] at hn
    rcases List.mem_cons.1 hx with rfl | hx' <;> rcases List.mem_cons.1 hy with rfl | hy'
    · rfl
    · exact absurd (e ▸ List.mem_map.2 ⟨y, hy', rfl⟩) hn.1
    · exact absurd (e ▸ List.mem_map.2 ⟨x, hx', rfl⟩) hn.1
    · exact map_inj hn.2 hx' hy' e

/-- No two fields with the same tag. -/
theorem tag_inj {fields : List Fld} (h : (fields.map Fld.tag).Nodup) {f g : Fld} (hf : f ∈ fields) (hg : g ∈ fields)
    (e : f.tag = g.tag) : f = g := map_inj h hf hg e

/-- The value of an attribute field that the document shows. -/
def ValOk (ext : Ext) (val : Bytes → Option Cty) (target : Fld → Val) (f : Fld) : Prop :=
  (val f.tag = none ∧ target f = ext.zero f.ty) ∨ ∃ cv, val f.tag = some cv ∧ ext.leaf f cv = .ok (target f)

theorem decodeLeaves_shows {ext val target} : ∀ {fs : List Fld}, (∀ f ∈ fs, ValOk ext val target f) → (fs.map Fld.tag).Nodup →
    decodeLeaves ext val fs = .ok (fs.map target)
  | [], _, _ => rfl
  | f :: fs, h, hn => by
    rw [List.map_cons, List.nodup_cons] at hn
    have ih := decodeLeaves_shows (fs := fs) (fun g hg => h g (by simp [hg])) hn.2
    rcases h f (by simp) with ⟨h1, h2⟩ | ⟨cv, h1, h2⟩
    · simp only [decodeLeaves, h1, ih, Except.map, List.map_cons, h2]
    · have : hasTag fs f.tag = false := by
        rw [Bool.eq_false_iff]
        intro ht
        obtain ⟨g, hg, e⟩ := hasTag_iff.1 ht
        exact hn.1 (e ▸ List.mem_map.2 ⟨g, hg, rfl⟩)
      simp only [decodeLeaves, h1, this, h2, ih, Except.map, List.map_cons, Bool.false_eq_true, if_false]

/-! ## Assignments -/

theorem setF_ok {name v} : ∀ {fs : Fields}, name ∈ fs.map Prod.fst →
    ∃ fs', setF name v fs = .ok fs' ∧ fs'.map Prod.fst = fs.map Prod.fst
  | [], h => by cases h
  | e :: r, h => by
    by_cases he : e.1 = name
    · exact ⟨(name, v) :: r, by rw [setF, if_pos he], by simp [he]⟩
    · obtain ⟨r', h1, h2⟩ := setF_ok (v := v) (fs := r) (by
        rw [List.map_cons, List.mem_cons] at h
        exact h.resolve_left (fun e' => he e'.symm))
      exact ⟨e :: r', by rw [setF, if_neg he, h1]; rfl, by simp [h2]⟩

/-- Contents with the same names and values are the same. -/
theorem fields_ext : ∀ {l l' : Fields}, l.map Prod.fst = l'.map Prod.fst → (l.map Prod.fst).Nodup →
    (∀ k ∈ l.map Prod.fst, GoMap.get? l k = GoMap.get? l' k) → l = l'
  | [], [], _, _, _ => rfl
  | [], _ :: _, h, _, _ => by simp at h
  | _ :: _, [], h, _, _ => by simp at h
  | (k, v) :: l, (k', v') :: l', h, hn, hg => by
    simp only [List.map_cons, List.cons.injEq] at h
    obtain ⟨rfl, h⟩ := h
    rw [List.map_cons, List.nodup_cons] at hn
    have h1 := hg k (by simp)
    simp only [GoMap.get?, if_true, Option.some.injEq] at h1
    subst h1
    rw [fields_ext h hn.2]
    intro x hx
    have h2 := hg x (by simp only [List.map_cons, List.mem_cons]; exact Or.inr hx)
    have hne : k ≠ x := fun e => hn.1 (e ▸ hx)
    simpa only [GoMap.get?, if_neg hne] using h2

/-- The step stores the value in the field, if the field is as at the beginning, and touches nothing else. -/
def Puts (G : St → Prop) (K : List Bytes) (fs0 : Fields) (name : Bytes) (v : Val) (s : Step) : Prop :=
  ∀ fs st, G st → fs.map Prod.fst = K → GoMap.get? fs name = GoMap.get? fs0 name →
    ∃ fs' st', s fs st = .ok (fs', st') ∧ G st' ∧ fs'.map Prod.fst = K ∧ GoMap.get? fs' name = some v ∧
      ∀ x, x ≠ name → GoMap.get? fs' x = GoMap.get? fs x

theorem puts_set {G : St → Prop} {K fs0 name v} {s : Step} (hm : name ∈ K)
    (hs : ∀ fs st, GoMap.get? fs name = GoMap.get? fs0 name → s fs st = (setF name v fs).map fun fs => (fs, st)) :
    Puts G K fs0 name v s := by
  intro fs st hg hk h0
  obtain ⟨fs', h1, h2⟩ := setF_ok (name := name) (v := v) (fs := fs) (by rw [hk]; exact hm)
  refine ⟨fs', st, by rw [hs fs st h0, h1]; rfl, hg, by rw [h2, hk], ?_, ?_⟩
  · rw [get?_setF h1, if_pos rfl]
  · intro x hx; rw [get?_setF h1, if_neg hx]

theorem puts_none {G : St → Prop} {K fs0 name v} {s : Step} (h0 : GoMap.get? fs0 name = some v)
    (hs : ∀ fs st, GoMap.get? fs name = GoMap.get? fs0 name → s fs st = .ok (fs, st)) : Puts G K fs0 name v s := by
  intro fs st hg hk h
  exact ⟨fs, st, hs fs st h, hg, hk, h.trans h0, fun _ _ => rfl⟩

theorem runSteps_puts {G : St → Prop} {K fs0} : ∀ {l : List (Bytes × Val × Step)} {fs st}, (l.map Prod.fst).Nodup →
    (∀ x ∈ l, Puts G K fs0 x.1 x.2.1 x.2.2) → G st → fs.map Prod.fst = K →
    (∀ x ∈ l, GoMap.get? fs x.1 = GoMap.get? fs0 x.1) →
    ∃ fs' st', runSteps (l.map fun x => x.2.2) fs st = (fs', .ok st') ∧ G st' ∧ fs'.map Prod.fst = K ∧
      (∀ x ∈ l, GoMap.get? fs' x.1 = some x.2.1) ∧ ∀ k, k ∉ l.map Prod.fst → GoMap.get? fs' k = GoMap.get? fs k
  | [], fs, st, _, _, hg, hk, _ => ⟨fs, st, rfl, hg, hk, fun x hx => by simp at hx, fun _ _ => rfl⟩
  | (n, v, s) :: l, fs, st, hn, hp, hg, hk, h0 => by
    rw [List.map_cons, List.nodup_cons] at hn
    obtain ⟨fs1, st1, h1, hg1, hk1, hv1, ho1⟩ := hp (n, v, s) (by simp) fs st hg hk (h0 (n, v, s) (by simp))
    have hne : ∀ x ∈ l, x.1 ≠ n := fun x hx e => hn.1 (e ▸ List.mem_map.2 ⟨x, hx, rfl⟩)
    obtain ⟨fs2, st2, h2, hg2, hk2, hv2, ho2⟩ := runSteps_puts (l := l) hn.2 (fun x hx => hp x (by simp [hx])) hg1 hk1
      (fun x hx => by rw [ho1 _ (hne x hx)]; exact h0 x (by simp [hx]))
    refine ⟨fs2, st2, ?_, hg2, hk2, ?_, ?_⟩
    · simp only at h1
      simp only [List.map_cons, runSteps, h1]
      exact h2
    · intro x hx
      rcases List.mem_cons.1 hx with rfl | hx
      · rw [ho2 _ hn.1]; exact hv1
      · exact hv2 x hx
    · intro k hk
      simp only [List.map_cons, List.mem_cons, not_or] at hk
      rw [ho2 k hk.2, ho1 k hk.1]

theorem runSteps_idle {l : List Step} (h : ∀ s ∈ l, ∀ fs st, s fs st = .ok (fs, st)) (fs st) : runSteps l fs st = (fs, .ok st) := by
  induction l with
  | nil => rfl
  | cons s l ih => simp only [runSteps, h s (by simp)]; exact ih fun s hs => h s (by simp [hs])

/-! ## Blocks -/

/-- The recursive call decodes what documents show. -/
def RecShows (env : Env) (emb : Nat) (ext : Ext) (root : Nat) (shows : Body → Nat → Fields → Prop) (rec : Rec) : Prop :=
  ∀ path st node c fs labels body, Tree.Inv st.heap → root < st.heap.length → node < st.heap.length → Canonical env ext st.ref →
    shows body c fs → LabelsAre (env.flat emb c) fs labels →
    ∃ st', rec path st node c (newFields env ext c) [] labels body = (fs, .ok st') ∧
      Tree.Inv st'.heap ∧ Le st.heap st'.heap ∧ RefStep env ext st.ref st'.ref

/-- The states between the blocks of a struct. -/
structure During (env : Env) (ext : Ext) (root node : Nat) (h0 : Heap Cty) (r0 : GoMap Bytes Tmpl) (st : St) : Prop where
  inv : Tree.Inv st.heap
  root : root < st.heap.length
  node : node < st.heap.length
  heap : Le h0 st.heap
  canon : Canonical env ext st.ref
  ref : RefLe r0 st.ref
  step : RefStep env ext r0 st.ref

theorem During.next {env ext root node h0 r0 st st'} (h : During env ext root node h0 r0 st) (hi : Tree.Inv st'.heap)
    (hl : Le st.heap st'.heap) (hr : RefStep env ext st.ref st'.ref) : During env ext root node h0 r0 st' :=
  ⟨hi, Nat.lt_of_lt_of_le h.root hl.length, Nat.lt_of_lt_of_le h.node hl.length, h.heap.trans hl, hr.canonical h.canon,
    fun k t hk => hr.le h.canon k t (h.ref k t hk), h.step.trans hr⟩

section
variable {env : Env} {emb : Nat} {ext : Ext} {root node : Nat} {h0 : Heap Cty} {r0 : GoMap Bytes Tmpl} {shows : Body → Nat → Fields → Prop}
  {rec : Rec} (hrec : RecShows env emb ext root shows rec)
include hrec

theorem decodeBlock_shows {path st tag labels body c fs nm ml} (hd : During env ext root node h0 r0 st)
    (hn : NodeFor h0 node tag labels) (hr : GoMap.get? r0 nm = some (newOf env ext (.struct c)))
    (hml : (ml : Option Nat).any (fun m => decide (m < labels.length)) = false) (hs : shows body c fs)
    (hl : LabelsAre (env.flat emb c) fs labels) :
    ∃ st', decodeBlock rec path st node tag ⟨labels, some body⟩ (.mk nm []) ml = .ok ((c, fs), st') ∧
      During env ext root node h0 r0 st' := by
  obtain ⟨sub, hsub, hg⟩ := (hn.mono hd.heap).get hd.inv hd.node
  obtain ⟨st', h1, h2, h3, h4⟩ := hrec path st sub c fs labels body hd.inv hd.root hsub hd.canon hs hl
  refine ⟨st', ?_, hd.next h2 h3 h4⟩
  have hr' : GoMap.get? st.ref nm = some (.ptr c (newFields env ext c)) := hd.ref _ _ hr
  simp only [decodeBlock, hg, Cls.name, Cls.fields, hr', hml, h1, Bool.false_eq_true, if_false]

omit hrec in
theorem store_ok {ty c fs v} (h : Holds env ty c fs v) : store env ty c fs = .ok v := by
  cases h with
  | any => rfl
  | iface h => simp [store, h]
  | ptr => simp [store]
  | struct => simp [store]

omit hrec in
theorem Holds.cls {ty : Ty} {c c' fs v} (h : Holds env ty c fs v) (hs : ty.structOf = some c') : c = c' := by
  cases h with
  | ptr => cases hs; rfl
  | struct => cases hs; rfl
  | any => cases hs
  | iface => cases hs

/-- The blocks of the document. -/
def toBlk (blk : List Bytes × Body) : Blk := ⟨blk.1, some blk.2⟩

theorem listLoop_shows {path tag e c nm} (he : e.structOf = some c) (hr : GoMap.get? r0 nm = some (newOf env ext (.struct c))) :
    ∀ {blks l cs st}, (∀ x ∈ cs, x = Cls.mk nm []) → During env ext root node h0 r0 st → (∀ blk ∈ blks, NodeFor h0 node tag blk.1) →
      List.Forall₂ (BlockShows env emb shows e) blks l →
      ∃ st', listLoop env rec path node tag e (.mk nm []) cs (blks.map toBlk) st = .ok (l, st') ∧ During env ext root node h0 r0 st'
  | [], _, cs, st, _, hd, _, h => by cases h; exact ⟨st, rfl, hd⟩
  | blk :: blks, _, cs, st, hcs, hd, hn, h => by
    cases h with
    | @cons _ v _ l h1 h2 =>
    obtain ⟨c', fs, hc', hh, hs, hl⟩ := h1
    rw [he] at hc'; cases hc'
    obtain ⟨st1, d1, hd1⟩ := decodeBlock_shows hrec (path := place path tag (blks.map toBlk)) (ml := none) hd (hn blk (by simp)) hr rfl hs hl
    have hhead : cs.headD (.mk nm []) = .mk nm [] := by
      cases cs with
      | nil => rfl
      | cons x cs => exact hcs x (by simp)
    obtain ⟨st2, d2, hd2⟩ := listLoop_shows he hr (cs := cs.tail) (blks := blks) (fun x hx => hcs x (List.mem_of_mem_tail hx)) hd1
      (fun b hb => hn b (by simp [hb])) h2
    refine ⟨st2, ?_, hd2⟩
    simp only [List.map_cons, listLoop, hhead, toBlk] at d1 d2 ⊢
    rw [d1]
    simp only [store_ok hh]
    rw [d2]

theorem listMapLoop_shows {path tag e c nm} (he : e.structOf = some c) (hr : GoMap.get? r0 nm = some (newOf env ext (.struct c))) :
    ∀ {blks l st acc}, During env ext root node h0 r0 st → (∀ blk ∈ blks, NodeFor h0 node tag blk.1) →
      List.Forall₂ (fun blk (x : Bytes × Val) => blk.1.head? = some x.1 ∧ BlockShows env emb shows e blk x.2) blks l →
      ∃ st', listMapLoop env rec path node tag .str e (.mk nm []) (blks.map toBlk) st acc =
        .ok (l.foldl (fun m e => insertK ltB e.1 e.2 m) acc, st') ∧ During env ext root node h0 r0 st'
  | [], _, st, acc, hd, _, h => by cases h; exact ⟨st, rfl, hd⟩
  | blk :: blks, _, st, acc, hd, hn, h => by
    cases h with
    | @cons _ v _ l h1 h2 =>
    obtain ⟨hk, c', fs, hc', hh, hs, hl⟩ := h1
    rw [he] at hc'; cases hc'
    obtain ⟨st1, d1, hd1⟩ := decodeBlock_shows hrec (path := place path tag (blks.map toBlk)) (ml := none) hd (hn blk (by simp)) hr rfl hs hl
    obtain ⟨st2, d2, hd2⟩ := listMapLoop_shows he hr (acc := insertK ltB v.1 v.2 acc) (blks := blks) hd1 (fun b hb => hn b (by simp [hb])) h2
    refine ⟨st2, ?_, hd2⟩
    obtain ⟨ls, body⟩ := blk
    cases ls with
    | nil => cases hk
    | cons key ls =>
      simp only [List.head?_cons, Option.some.injEq] at hk
      subst hk
      simp only [List.map_cons, listMapLoop, toBlk] at d1 d2 ⊢
      rw [d1]
      simp only [store_ok hh, if_true, List.foldl_cons]
      exact d2

omit hrec in
theorem map2Key_pair {e c fs labels k} (he : e.structOf = some c) (h : PairLabels env e labels k) :
    map2Key labels (getLabels env c fs) = k := by
  obtain ⟨k0, k1⟩ := k
  obtain ⟨h1, h | ⟨h2, h3, h4⟩⟩ := h
  · obtain ⟨h2, rfl⟩ := h
    simp only at h1 h2
    simp [map2Key, h1, h2]
  · simp only at h1 h2 h3
    subst h2 h3
    have : labelFields env c = [] := by
      simp only [labelFields, List.filter_eq_nil_iff]
      intro f hf
      simpa using h4 c he f hf
    simp [map2Key, h1, getLabels, this]

omit hrec in
theorem pair_len {e labels k} (h : PairLabels env e labels k) :
    (some 2 : Option Nat).any (fun m => decide (m < labels.length)) = false := by
  obtain ⟨_, ⟨_, rfl⟩ | ⟨_, rfl, _⟩⟩ := h <;> simp

theorem map2Loop_shows {path tag e c nm} (he : e.structOf = some c) (hr : GoMap.get? r0 nm = some (newOf env ext (.struct c)))
    {m : List (Bytes × List (Bytes × Cls))} {first : Option (List (Bytes × Cls))}
    (hm : ∀ k0 k1, (GoMap.get? ((GoMap.get? m k0).getD (first.getD [])) k1).or (some (.mk nm [])) = some (.mk nm [])) :
    ∀ {blks l st acc}, During env ext root node h0 r0 st → (∀ blk ∈ blks, NodeFor h0 node tag blk.1) →
      List.Forall₂ (fun blk (x : (Bytes × Bytes) × Val) => PairLabels env e blk.1 x.1 ∧ BlockShows env emb shows e blk x.2) blks l →
      ∃ st', map2Loop env rec path node tag .str2 e m first (some (.mk nm [])) (blks.map toBlk) st acc =
        .ok (l.foldl (fun m e => insertK ltB2 e.1 e.2 m) acc, st') ∧ During env ext root node h0 r0 st'
  | [], _, st, acc, hd, _, h => by cases h; exact ⟨st, rfl, hd⟩
  | blk :: blks, _, st, acc, hd, hn, h => by
    cases h with
    | @cons _ v _ l h1 h2 =>
    obtain ⟨hk, c', fs, hc', hh, hs, hl⟩ := h1
    rw [he] at hc'; cases hc'
    obtain ⟨st1, d1, hd1⟩ := decodeBlock_shows hrec (path := place path tag (blks.map toBlk)) (ml := some 2) hd (hn blk (by simp)) hr
      (pair_len hk) hs hl
    obtain ⟨st2, d2, hd2⟩ := map2Loop_shows he hr hm (acc := insertK ltB2 v.1 v.2 acc) (blks := blks) hd1 (fun b hb => hn b (by simp [hb])) h2
    refine ⟨st2, ?_, hd2⟩
    have hcls := hm (blk.1.getD 0 []) (blk.1.getD 1 [])
    simp only [List.map_cons, map2Loop, toBlk] at d1 d2 ⊢
    rw [hcls]
    simp only [orPanic]
    rw [d1]
    simp only [store_ok hh, if_true, List.foldl_cons, map2Key_pair he hk]
    exact d2

theorem oriValue_shows (hord : ∀ p l, (ext.ord p l).Perm l) {path tag ty c nm spec blks v st} (hslot : Slot env ty c nm spec)
    (hr : GoMap.get? r0 nm = some (newOf env ext (.struct c))) (hd : During env ext root node h0 r0 st)
    (hn : ∀ blk ∈ blks, NodeFor h0 node tag blk.1) (hne : blks ≠ []) (h : BlocksShow env emb ext shows ty blks v) :
    ∃ st', oriValue env ext rec path node tag ty spec (blks.map toBlk) st = .ok (some v, st') ∧ During env ext root node h0 r0 st' := by
  rcases h with ⟨h, _⟩ | ⟨_, h⟩
  · exact absurd h hne
  cases hslot with
  | single hst =>
    have hsingle : ∃ blk, blks = [blk] ∧ BlockShows env emb shows ty blk v := by
      cases ty with
      | struct d => exact h
      | ptr t => exact h
      | _ => cases hst
    obtain ⟨blk, rfl, c', fs, hc', hh, hs, hl⟩ := hsingle
    rw [hst] at hc'; cases hc'
    obtain ⟨st1, d1, hd1⟩ := decodeBlock_shows hrec (path := place path tag []) (ml := none) hd (hn blk (by simp)) hr rfl hs hl
    refine ⟨st1, ?_, hd1⟩
    simp only [oriValue, List.map_cons, List.map_nil, toBlk, d1, store_ok hh, Except.map]
  | @slice e _ hst =>
    obtain ⟨l, rfl, hf⟩ := h
    obtain ⟨st1, d1, hd1⟩ := listLoop_shows hrec (path := path) (tag := tag) hst hr (cs := [.mk (env.tyStr e) []]) (by simp) hd hn hf
    refine ⟨st1, ?_, hd1⟩
    simp only [oriValue, d1, Except.map]
  | map hst =>
    obtain ⟨m, l, rfl, hsort, hp, hf⟩ := h
    obtain ⟨st1, d1, hd1⟩ := listMapLoop_shows hrec (path := path) (tag := tag) hst hr (acc := []) hd hn hf
    refine ⟨st1, ?_, hd1⟩
    rw [Det.foldl_insertK_perm Det.ltB_lin hp hsort] at d1
    simp only [oriValue, d1, Except.map]
  | @map2 e c hst =>
    obtain ⟨m, l, rfl, hsort, hp, hf⟩ := h
    obtain ⟨st1, d1, hd1⟩ := map2Loop_shows hrec (path := path) (tag := tag) hst hr
      (m := [([], [([], Cls.mk (env.tyStr e) [])])]) (first := some [([], Cls.mk (env.tyStr e) [])])
      (by
        intro k0 k1
        simp only [GoMap.get?]
        split <;> simp only [Option.getD_some, Option.getD_none, GoMap.get?] <;> split <;> rfl) (acc := []) hd hn hf
    refine ⟨st1, ?_, hd1⟩
    rw [Det.foldl_insertK_perm Det.ltB2_lin hp hsort] at d1
    have e1 : ∀ p, ext.ord p [[]] = [[]] := fun p => List.perm_singleton.1 (hord p [[]])
    have e2 : ∀ {α : Type} (x : α), GoMap.get? [([], x)] ([] : Bytes) = some x := fun x => by simp [GoMap.get?]
    simp only [oriValue, GoMap.keys, List.map_cons, List.map_nil, e1, List.head?_cons, Option.bind_some, e2, firstOf, d1, Except.map]

theorem oriStep_puts (hord : ∀ p l, (ext.ord p l).Perm l) {lf : LF} {nulls body vals path fs0 v K} {f : Fld} {c nm spec}
    (hslot : Slot env f.ty c nm spec) (hob : GoMap.get? lf.obj f.name = some spec)
    (hr : GoMap.get? r0 nm = some (newOf env ext (.struct c))) (hno : routed nulls lf vals .ori f.tag = none)
    (hn : ∀ x ∈ body.blocks, NodeFor h0 node x.1 x.2.1) (h : BlocksShow env emb ext shows f.ty (blocksOf body f.tag) v)
    (h0' : GoMap.get? fs0 f.name = some (ext.zero f.ty)) (hm : f.name ∈ K) :
    Puts (During env ext root node h0 r0) K fs0 f.name v (oriStep env ext rec nulls lf body vals path node f) := by
  have hob' : oriBlocks ext nulls lf body vals f.tag = (blocksOf body f.tag).map toBlk := by
    simp only [oriBlocks, hno, List.nil_append, blocksOf, List.map_map]
    rfl
  intro fs st hd hk hf
  by_cases hne : blocksOf body f.tag = []
  · rcases h with ⟨_, rfl⟩ | ⟨h, _⟩
    · refine ⟨fs, st, ?_, hd, hk, by rw [hf, h0'], fun _ _ => rfl⟩
      simp only [oriStep, hob', hne, List.map_nil]
    · exact absurd hne h
  · obtain ⟨st', d1, hd1⟩ := oriValue_shows hrec hord (path := path) (tag := f.tag) hslot hr hd (blks := blocksOf body f.tag) (by
      intro blk hb
      obtain ⟨x, hx, rfl⟩ := List.mem_map.1 hb
      rw [List.mem_filter] at hx
      have he : x.1 = f.tag := by simpa using hx.2
      rw [← he]
      exact hn x hx.1) hne h
    obtain ⟨fs', s1, s2⟩ := setF_ok (name := f.name) (v := v) (fs := fs) (by rw [hk]; exact hm)
    refine ⟨fs', st', ?_, hd1, by rw [s2, hk], by rw [get?_setF s1, if_pos rfl], fun x hx => by rw [get?_setF s1, if_neg hx]⟩
    cases hb : blocksOf body f.tag with
    | nil => exact absurd hb hne
    | cons blk blks =>
      rw [hb, List.map_cons] at d1
      simp only [oriStep, hob', hb, List.map_cons, hob, Option.getD_some, d1, s1, Except.map]

end

/-! ## Embedded structs -/

theorem loopList_append {env : Env} {ext : Ext} {nulls : List Bytes} {deep : List Fld → LF → Except Fail LF} : ∀ {l l' : List Fld} {lf : LF},
    loopList env ext nulls deep (l ++ l') lf = match loopList env ext nulls deep l lf with
      | .error x => .error x
      | .ok lf' => loopList env ext nulls deep l' lf'
  | [], l', lf => rfl
  | f :: l, l', lf => by
    simp only [List.cons_append, loopList]
    split
    · exact loopList_append
    · split
      · exact loopList_append
      · split
        · exact loopList_append
        · split
          · exact loopList_append
          · split
            · split
              · rfl
              · exact loopList_append
            · split
              · split
                · split
                  · rfl
                  · exact loopList_append
                · exact loopList_append
              · exact loopList_append

/-- Fields with tags do not need the nested call. -/
theorem loopList_deep {env : Env} {ext : Ext} {nulls : List Bytes} {deep deep' : List Fld → LF → Except Fail LF} : ∀ {l : List Fld} {lf : LF},
    (∀ f ∈ l, lower f.what = b "label" ∨ f.tag ≠ []) → loopList env ext nulls deep l lf = loopList env ext nulls deep' l lf
  | [], _, _ => rfl
  | f :: l, lf, h => by
    have ih : ∀ {lf}, loopList env ext nulls deep l lf = loopList env ext nulls deep' l lf := loopList_deep fun g hg => h g (by simp [hg])
    have ht := h f (by simp)
    simp only [loopList, ih]
    rcases ht with ht | ht
    · simp only [ht, if_true]
    · simp only [ht, false_and, if_false]

theorem addElem_obj {lf : LF} {f : Fld} {k v} {x : Bytes} (hx : x ≠ f.name) : GoMap.get? (lf.addElem f k v).obj x = GoMap.get? lf.obj x := by
  cases k <;> simp [LF.addElem, LF.addOri, GoMap.get?_set, Ne.symm hx]

theorem addTagged_obj {env : Env} {ext : Ext} {lf : LF} {f : Fld} {x : Bytes} (hx : x ≠ f.name) :
    GoMap.get? (lf.addTagged env ext f).obj x = GoMap.get? lf.obj x := by
  unfold LF.addTagged
  split
  · simp [LF.addOri, GoMap.get?_set, Ne.symm hx]
  · exact addElem_obj hx
  · exact addElem_obj hx
  · exact addElem_obj hx
  · rfl

/-- Only the fields get specifications. -/
theorem loopList_obj {env : Env} {ext : Ext} {nulls : List Bytes} {deep : List Fld → LF → Except Fail LF} {x : Bytes} : ∀ {l : List Fld} {lf lf' : LF},
    (∀ f ∈ l, lower f.what = b "label" ∨ f.tag ≠ []) → loopList env ext nulls deep l lf = .ok lf' → x ∉ l.map Fld.name →
    GoMap.get? lf'.obj x = GoMap.get? lf.obj x
  | [], lf, lf', _, h, _ => by cases h; rfl
  | f :: l, lf, lf', hk, h, hx => by
    rw [List.map_cons, List.mem_cons, not_or] at hx
    have ih : ∀ {lf1}, loopList env ext nulls deep l lf1 = .ok lf' → GoMap.get? lf'.obj x = GoMap.get? lf1.obj x :=
      fun h => loopList_obj (fun g hg => hk g (by simp [hg])) h hx.2
    have ht := hk f (by simp)
    rw [loopList] at h
    split at h
    · exact ih h
    · split at h
      · exact ih h
      · split at h
        · exact (ih h).trans rfl
        · rename_i hw
          split at h
          · exact ih h
          · split at h
            · split at h
              · cases h
              · exact (ih h).trans rfl
            · rw [if_neg (by rcases ht with ht | ht; exact absurd ht hw; exact ht)] at h
              rw [ih h, addTagged_obj hx.1]

theorem Fld.embeds_some {f : Fld} {c : Nat} (h : f.embeds = some c) :
    f.upper = true ∧ f.tag = [] ∧ lower f.what ≠ b "label" ∧ f.ty = .struct c := by
  unfold Fld.embeds at h
  split at h
  · rename_i h'
    refine ⟨h'.1, h'.2.1, h'.2.2, ?_⟩
    split at h
    · rename_i hty; cases h; exact hty
    · cases h
  · cases h

/-- The fields of embedded structs are treated as if they were in their place. -/
theorem loopFields_flat {env : Env} {ext : Ext} : ∀ {emb m : Nat} {l : List Fld} {lf : LF}, emb ≤ m →
    (∀ f ∈ flatten env emb l, lower f.what = b "label" ∨ f.tag ≠ []) →
    (∀ g ∈ embeddedIn env emb l, g.name ∉ (flatten env emb l).map Fld.name ∧ GoMap.get? lf.obj g.name = none) →
    loopFields env ext [] m l lf = loopFields env ext [] m (flatten env emb l) lf
  | 0, m, l, lf, _, _, _ => rfl
  | emb + 1, m + 1, l, lf, hm, hk, he => by
    simp only [loopFields]
    induction l generalizing lf with
    | nil => rfl
    | cons f l ih =>
      rw [flatten, List.flatMap_cons] at hk he ⊢
      rw [embeddedIn, List.flatMap_cons] at he
      have hk1 := fun g hg => hk g (List.mem_append_left _ hg)
      have hk2 := fun g hg => hk g (List.mem_append_right _ hg)
      rw [show f :: l = [f] ++ l from rfl, loopList_append, loopList_append]
      have step : ∀ {lf1}, (∀ x, x ∉ ((match f.embeds with | some c => flatten env emb (env.struct c).fields | none => [f]).map Fld.name) →
          GoMap.get? lf1.obj x = GoMap.get? lf.obj x) →
          loopList env ext [] (loopFields env ext [] m) l lf1 = loopList env ext [] (loopFields env ext [] m) (flatten env (emb + 1) l) lf1 := by
        intro lf1 ho
        refine ih (lf := lf1) hk2 fun g hg => ?_
        obtain ⟨h1, h2⟩ := he g (List.mem_append_right _ hg)
        rw [List.map_append, List.mem_append, not_or] at h1
        exact ⟨h1.2, by rw [ho _ h1.1, h2]⟩
      cases hf : f.embeds with
      | none =>
        simp only [hf] at hk1 step
        simp only []
        cases h1 : loopList env ext [] (loopFields env ext [] m) [f] lf with
        | error x => rfl
        | ok lf1 => exact step fun x hx => loopList_obj hk1 h1 hx
      | some c =>
        simp only [hf] at hk1 step he
        obtain ⟨hu, ht, hw, hty⟩ := Fld.embeds_some hf
        have hob : GoMap.get? lf.obj f.name = none := (he f (by simp)).2
        have hl : loopList env ext [] (loopFields env ext [] m) [f] lf = loopFields env ext [] m (env.struct c).fields lf := by
          have hs : ¬ (f.tag = b "-" ∨ (b ",-").isSuffixOf f.tag = true) := by rw [ht]; decide +kernel
          rw [loopList, if_neg (by simp [hu]), if_neg (by simp), if_neg hw, if_neg hs, hob, if_neg (by simp), if_pos ht, hty]
          simp only [Ty.structOf]
          cases loopFields env ext [] m (env.struct c).fields lf <;> rfl
        have hi := loopFields_flat (env := env) (ext := ext) (emb := emb) (m := m) (l := (env.struct c).fields) (lf := lf) (by omega) hk1 (by
          intro g hg
          obtain ⟨h1, h2⟩ := he g (by simp [hg])
          rw [List.map_append, List.mem_append, not_or] at h1
          exact ⟨h1.1, h2⟩)
        have hd : loopFields env ext [] m (flatten env emb (env.struct c).fields) lf =
            loopList env ext [] (loopFields env ext [] m) (flatten env emb (env.struct c).fields) lf := by
          cases m <;> exact loopList_deep hk1
        rw [hl, hi, hd]
        simp only []
        cases h1 : loopList env ext [] (loopFields env ext [] m) (flatten env emb (env.struct c).fields) lf with
        | error x => rfl
        | ok lf1 => exact step fun x hx => loopList_obj hk1 h1 hx

/-! ## The whole -/

theorem mem_filter_kind {fields : List Fld} {p : Fld → Bool} {f : Fld} (h : f ∈ fields.filter p) : f ∈ fields ∧ p f = true :=
  List.mem_filter.1 h

theorem nodup_filter {β : Type} {fields : List Fld} {g : Fld → β} (h : (fields.map g).Nodup) (p : Fld → Bool) :
    ((fields.filter p).map g).Nodup := h.sublist (List.filter_sublist.map g)

theorem get?_new {env ext emb c} (hr : Regular env emb c) {f : Fld} (hf : f ∈ (env.flat emb c).fields) :
    GoMap.get? (newFields env ext c) f.name = some (ext.zero f.ty) := by
  refine GoMap.mem_get? ?_ ?_
  · have hp : (env.struct c).promoted = _ := hr.promoted
    simp only [GoMap.keys, newFields, hp, List.map_map]
    exact hr.names
  · have hp : (env.struct c).promoted = _ := hr.promoted
    simp only [newFields, hp, List.map_map]
    exact List.mem_map.2 ⟨f, hf, rfl⟩

/-- The three lists of fields have different names. -/
theorem names_disjoint {env : Env} {emb c : Nat} (hr : Regular env emb c) :
    (((env.flat emb c).fields.filter isLabelF).map Fld.name ++ ((env.flat emb c).fields.filter isPlainF).map Fld.name ++
      ((env.flat emb c).fields.filter isBlockF).map Fld.name).Nodup := by
  have key : ∀ {p q : Fld → Bool}, (∀ f ∈ (env.flat emb c).fields, p f = true → q f = true → False) →
      ∀ a ∈ ((env.flat emb c).fields.filter p).map Fld.name, ∀ x ∈ ((env.flat emb c).fields.filter q).map Fld.name, a ≠ x := by
    intro p q hpq a ha c hc e
    obtain ⟨f, hf, rfl⟩ := List.mem_map.1 ha
    obtain ⟨g, hg, rfl⟩ := List.mem_map.1 hc
    rw [List.mem_filter] at hf hg
    have := map_inj hr.names hf.1 hg.1 e
    subst this
    exact hpq f hf.1 hf.2 hg.2
  have h1 : ∀ f ∈ (env.flat emb c).fields, isLabelF f = true → isPlainF f = true → False := by
    intro f _ h h'; simp [isPlainF, h] at h'
  have h2 : ∀ f ∈ (env.flat emb c).fields, isLabelF f = true → isBlockF f = true → False := by
    intro f _ h h'; simp [isBlockF, h] at h'
  have h3 : ∀ f ∈ (env.flat emb c).fields, isPlainF f = true → isBlockF f = true → False := by
    intro f hf h h'
    have hp := Kinds.plain (hr.kinds f hf) h
    rw [hp.is.2.2] at h'; cases h'
  refine List.nodup_append.2 ⟨List.nodup_append.2 ⟨nodup_filter hr.names _, nodup_filter hr.names _, key h1⟩,
    nodup_filter hr.names _, ?_⟩
  intro a ha c hc
  rcases List.mem_append.1 ha with ha | ha
  · exact key h2 a ha c hc
  · exact key h3 a ha c hc

theorem zip_map {α β : Type} (l : List α) (g : α → β) : l.zip (l.map g) = l.map fun a => (a, g a) := by
  induction l with
  | nil => rfl
  | cons a l ih => simp [ih]

theorem zip_get {fs : Fields} : ∀ {own : List Fld} {labels : List Bytes},
    own.map (fun f => GoMap.get? fs f.name) = labels.map (fun s => some (Val.str s)) →
    ∀ x ∈ own.zip labels, GoMap.get? fs x.1.name = some (.str x.2)
  | [], _, _, x, hx => by simp at hx
  | _ :: _, [], h, x, hx => by simp at h
  | f :: own, s :: labels, h, x, hx => by
    simp only [List.map_cons, List.cons.injEq] at h
    rw [List.zip_cons_cons, List.mem_cons] at hx
    rcases hx with rfl | hx
    · exact h.1
    · exact zip_get h.2 x hx

theorem decode_shows {env emb ext root} (hord : ∀ p l, (ext.ord p l).Perm l) (hz : ext.zero .str = .str []) :
    ∀ n m, n + emb ≤ m → RecShows env emb ext root (Shows env emb ext n) (decode env ext root m)
  | 0, _, _ => by intro path st node c fs labels body _ _ _ _ h; exact h.elim
  | n + 1, 0, h => by omega
  | n + 1, m + 1, hnm => by
    intro path st node c fs labels body hi hroot hnode hcan hsh hlab
    have ih := decode_shows (env := env) (emb := emb) (root := root) hord hz n m (by omega)
    obtain ⟨hreg, hkeys, hattrs, hnd, hblocks, hfields⟩ := hsh
    -- the document
    have hplain : ∀ f ∈ (env.flat emb c).fields, PlainFld f → ∃ v, GoMap.get? fs f.name = some v ∧ AttrShows ext body f v := by
      intro f hf hp
      obtain ⟨v, h1, h2⟩ := hfields f hf
      exact ⟨v, h1, h2.plain hp⟩
    have hget : ∀ a ∈ body.attrs, GoMap.get? body.attrs a.1 = some a.2 := fun a ha => GoMap.mem_get? hnd ha
    have hattr : ∀ a ∈ body.attrs, Lit a.2.expr ∧ ∃ cv, evalE ext [] a.2.expr = .ok cv ∧ cv ≠ .null := by
      intro a ha
      obtain ⟨f, hf, hp, e⟩ := hattrs a ha
      obtain ⟨v, _, h2⟩ := hplain f hf hp
      simp only [AttrShows, e, hget a ha] at h2
      obtain ⟨h3, cv, h4, h5, _⟩ := h2
      exact ⟨h3, cv, h4, h5⟩
    have hlit : ∀ a ∈ body.attrs, Lit a.2.expr := fun a ha => (hattr a ha).1
    have hks : ∀ k, k ∈ ext.ord (path ++ [b "attributes"]) (GoMap.keys body.attrs) ↔ k ∈ GoMap.keys body.attrs :=
      fun k => (hord _ _).mem_iff
    obtain ⟨h1, he1, hi1, hl1⟩ := evalAttrs_lit (ext := ext) (root := root) (node := node) hlit
      (ks := ext.ord (path ++ [b "attributes"]) (GoMap.keys body.attrs)) (fun k hk => (hks k).1 hk) hi hroot hnode
    obtain ⟨h2, he2, hi2, hl2, hnf⟩ := addBlockNodes_sim (node := node) (blocks := body.blocks) hi1 (Nat.lt_of_lt_of_le hnode hl1.length)
    -- values
    generalize hvals : (ext.ord (path ++ [b "attributes"]) (GoMap.keys body.attrs)).map (fun k => (k, litVal ext body.attrs k)) = vals at he1
    have hgv : ∀ k, GoMap.get? vals k = if k ∈ GoMap.keys body.attrs then some (litVal ext body.attrs k) else none := by
      intro k
      rw [← hvals, get?_map_self]
      simp only [hks]
    have hlv : ∀ a ∈ body.attrs, ∀ cv, evalE ext [] a.2.expr = .ok cv → litVal ext body.attrs a.1 = cv := by
      intro a ha cv hcv
      simp only [litVal, hget a ha, hcv]
    have hnull : nullKeys vals = [] := by
      simp only [nullKeys, List.map_eq_nil_iff, List.filter_eq_nil_iff, ← hvals, List.mem_map]
      rintro e ⟨k, hk, rfl⟩
      obtain ⟨a, ha, rfl⟩ := List.mem_map.1 ((hks k).1 hk)
      obtain ⟨_, cv, h4, h5⟩ := hattr a ha
      simp only [hlv a ha cv h4]
      cases cv <;> simp_all [isNull]
    -- fields
    obtain ⟨lf, hlf, hso⟩ := loopFields_sorts (env := env) (ext := ext) m (lf := ⟨[], [], [], [], [], st.ref⟩) hreg.kinds hreg.names
      (fun f _ => by simp [GoMap.get?]) hcan
    replace hlf := (loopFields_flat (env := env) (ext := ext) (emb := emb) (m := m) (l := (env.struct c).fields) (by omega)
      (fun f hf => Kinds.tagged (hreg.kinds f hf))
      (fun g hg => ⟨hreg.apart g hg, rfl⟩)).trans hlf
    have hrs : RefStep env ext st.ref lf.ref := loopFields_step _ _ _ _ hlf
    have hL : lf.labels = (env.flat emb c).fields.filter isLabelF := by simpa using hso.labels
    have hN : lf.news = (env.flat emb c).fields.filter isPlainF := by simpa using hso.news
    have hO : lf.oris = (env.flat emb c).fields.filter isBlockF := by simpa using hso.oris
    have hD : lf.decs = [] := hso.decs
    have hroute : ∀ f ∈ (env.flat emb c).fields, PlainFld f → route [] lf f.tag = .plain := by
      intro f hf hp
      have h1 : hasTag lf.labels f.tag = false := by
        rw [Bool.eq_false_iff]
        intro ht
        obtain ⟨g, hg, e⟩ := hasTag_iff.1 ht
        rw [hL, List.mem_filter] at hg
        rw [tag_inj hreg.tags hg.1 hf e, hp.is.1] at hg
        exact absurd hg.2 (by simp)
      have h2 : hasTag lf.oris f.tag = false := by
        rw [Bool.eq_false_iff]
        intro ht
        obtain ⟨g, hg, e⟩ := hasTag_iff.1 ht
        rw [hO, List.mem_filter] at hg
        rw [tag_inj hreg.tags hg.1 hf e, hp.is.2.2] at hg
        exact absurd hg.2 (by simp)
      have h3 : hasTag lf.decs f.tag = false := by rw [hD]; rfl
      simp only [route, h1, h2, h3, List.not_mem_nil, Bool.false_eq_true, if_false]
    have hval : ∀ f ∈ (env.flat emb c).fields, PlainFld f → routed [] lf vals .plain f.tag = GoMap.get? vals f.tag := by
      intro f hf hp
      simp [routed, hroute f hf hp]
    have hother : ∀ k r, r ≠ .plain → routed [] lf vals r k = none := by
      intro k r hr
      simp only [routed]
      split
      · rename_i hr'
        rw [hgv]
        split
        · rename_i hk
          obtain ⟨a, ha, rfl⟩ := List.mem_map.1 hk
          obtain ⟨f, hf, hp, e⟩ := hattrs a ha
          rw [← e, hroute f hf hp] at hr'
          exact absurd hr'.symm hr
        · rfl
      · rfl
    obtain ⟨h3, he3, hi3, hl3, _⟩ := oriAttrs_sim (nulls := []) (lf := lf) (vals := vals) (node := node)
      (ks := ext.ord (path ++ [b "refresh"]) (GoMap.keys body.attrs)) hi2
      (Nat.lt_of_lt_of_le hnode (hl1.trans hl2).length) (fun k _ cv h => by rw [hother k .ori (by simp)] at h; cases h)
    -- gohcl
    let target : Fld → Val := fun f => (GoMap.get? fs f.name).getD (.leaf 0)
    have htarget : ∀ f ∈ (env.flat emb c).fields, GoMap.get? fs f.name = some (target f) := by
      intro f hf
      obtain ⟨v, hv, _⟩ := hfields f hf
      simp only [target, hv, Option.getD_some]
    have hvok : ∀ f ∈ (env.flat emb c).fields, PlainFld f → ValOk ext (routed [] lf vals .plain) target f ∧
        (GoMap.get? vals f.tag = none → f.mayLack) := by
      intro f hf hp
      obtain ⟨v, hv, hs⟩ := hplain f hf hp
      rw [htarget f hf] at hv
      cases hv
      simp only [ValOk, hval f hf hp, hgv]
      cases ha : GoMap.get? body.attrs f.tag with
      | none =>
        simp only [if_neg (GoMap.get?_eq_none.1 ha)]
        simp only [AttrShows, ha] at hs
        exact ⟨Or.inl ⟨trivial, hs.2⟩, fun _ => hs.1⟩
      | some a =>
        have hmem := GoMap.get?_mem ha
        have hmem' : f.tag ∈ GoMap.keys body.attrs := List.mem_map.2 ⟨_, hmem, rfl⟩
        simp only [if_pos hmem']
        simp only [AttrShows, ha] at hs
        obtain ⟨_, cv, h4, _, h6⟩ := hs
        refine ⟨Or.inr ⟨cv, ?_, h6⟩, fun h => by cases h⟩
        rw [← hlv _ hmem cv h4]
    have hgo : gohclDecode ext lf body (routed [] lf vals .plain) = .ok (lf.news.map target) := by
      simp only [gohclDecode]
      rw [if_neg, if_neg, if_neg, if_neg, if_neg]
      · rw [hN]
        exact decodeLeaves_shows (fun f hf => by
          rw [List.mem_filter] at hf
          exact (hvok f hf.1 (Kinds.plain (hreg.kinds f hf.1) hf.2)).1) (nodup_filter hreg.tags _)
      · intro h
        obtain ⟨f, hf, h⟩ := List.any_eq_true.1 h
        rw [hN, List.mem_filter] at hf
        have hp := Kinds.plain (hreg.kinds f hf.1) hf.2
        simp only [hval f hf.1 hp, Bool.and_eq_true, Option.isNone_iff_eq_none, decide_eq_true_eq] at h
        exact required_lack h.1 ((hvok f hf.1 hp).2 h.2)
      · intro h
        obtain ⟨x, hx, h⟩ := List.any_eq_true.1 h
        obtain ⟨f, hf, hb, e⟩ := hblocks x hx
        have : hasTag lf.oris x.1 = true := hasTag_iff.2 ⟨f, by rw [hO, List.mem_filter]; exact ⟨hf, hb.is.2.2⟩, e⟩
        simp [this] at h
      · intro h
        obtain ⟨x, hx, h⟩ := List.any_eq_true.1 h
        obtain ⟨f, hf, hb, e⟩ := hattrs x hx
        have : hasTag lf.news x.1 = true := hasTag_iff.2 ⟨f, by rw [hN, List.mem_filter]; exact ⟨hf, hb.is.2.1⟩, e⟩
        simp [this] at h
      · intro h
        obtain ⟨f, hf, h⟩ := List.any_eq_true.1 h
        rw [hN, List.mem_filter] at hf
        have hp := Kinds.plain (hreg.kinds f hf.1) hf.2
        have hw := hp.what
        simp only [supported, Bool.not_eq_true', Bool.or_eq_false_iff, decide_eq_false_iff_not] at h
        rcases hw with hw | hw | hw
        · exact h.1.1 hw
        · exact h.1.2 hw
        · exact h.2 hw
      · rw [hN]
        exact fun h => h (nodup_filter hreg.names _)
    have hprep : prepare env ext m root st node c [] path body = .ok ⟨vals, lf, lf.news.map target, h3⟩ := by
      simp only [prepare, prelude, he1, he2, hnull, hlf, he3, hgo]
    -- assignments
    let K := (env.flat emb c).fields.map Fld.name
    let fs0 := newFields env ext c
    have hfs0 : fs0.map Prod.fst = K := by
      have hp : (env.struct c).promoted = _ := hreg.promoted
      simp only [fs0, K, newFields, hp, List.map_map]
      rfl
    have hinit : During env ext root node h3 lf.ref ⟨h3, lf.ref⟩ :=
      ⟨hi3, Nat.lt_of_lt_of_le hroot ((hl1.trans hl2).trans hl3).length, Nat.lt_of_lt_of_le hnode ((hl1.trans hl2).trans hl3).length,
        .refl _, hrs.canonical hcan, RefLe.refl _, RefStep.refl _ _ _⟩
    let items : List (Bytes × Val × Step) :=
      (if labels.length = lf.labels.length then (lf.labels.zip labels).map fun x => (x.1.name, Val.str x.2, labelStep x) else []) ++
      lf.news.map (fun f => (f.name, target f, newStep (routed [] lf vals .plain) (f, target f))) ++
      lf.oris.map (fun f => (f.name, target f, oriStep env ext (decode env ext root m) [] lf body vals path node f))
    have hitems : items.map (fun x => x.2.2) = labelSteps lf labels ++
        (lf.news.zip (lf.news.map target)).map (newStep (routed [] lf vals .plain)) ++
        lf.oris.map (oriStep env ext (decode env ext root m) [] lf body vals path node) := by
      simp only [items, labelSteps, zip_map, List.map_append, List.map_map]
      congr 2
      split
      · simp only [List.map_map]; rfl
      · rfl
    have hown : ∀ f, f ∈ lf.labels → f ∈ (env.flat emb c).fields ∧ LabelFld f := by
      intro f hf
      rw [hL, List.mem_filter] at hf
      exact ⟨hf.1, Kinds.label (hreg.kinds f hf.1) hf.2⟩
    have hlabels : labels.length = lf.labels.length → ∀ x ∈ lf.labels.zip labels, GoMap.get? fs x.1.name = some (.str x.2) := by
      intro hlen
      refine zip_get ?_
      rw [hL] at hlen ⊢
      exact hlab.1 hlen
    have hputs : ∀ x ∈ items, Puts (During env ext root node h3 lf.ref) K fs0 x.1 x.2.1 x.2.2 := by
      intro x hx
      simp only [items, List.mem_append] at hx
      rcases hx with (hx | hx) | hx
      · split at hx
        · obtain ⟨y, hy, rfl⟩ := List.mem_map.1 hx
          have hy1 := List.of_mem_zip hy
          obtain ⟨hf, hlf'⟩ := hown y.1 hy1.1
          refine puts_set (List.mem_map.2 ⟨_, hf, rfl⟩) ?_
          intro fs st h0
          rw [get?_new hreg hf, hlf'.ty, hz] at h0
          simp only [labelStep, getF, h0, hlf'.ty, if_true]
        · cases hx
      · obtain ⟨f, hf, rfl⟩ := List.mem_map.1 hx
        rw [hN, List.mem_filter] at hf
        have hp := Kinds.plain (hreg.kinds f hf.1) hf.2
        obtain ⟨h4, _⟩ := hvok f hf.1 hp
        rcases h4 with ⟨h4, h5⟩ | ⟨cv, h4, h5⟩
        · refine puts_none ?_ ?_
          · simp only [fs0]
            rw [get?_new hreg hf.1, h5]
          · intro fs st h0
            simp [newStep, h4]
        · refine puts_set (List.mem_map.2 ⟨_, hf.1, rfl⟩) ?_
          intro fs st h0
          simp [newStep, h4]
      · obtain ⟨f, hf, rfl⟩ := List.mem_map.1 hx
        rw [hO, List.mem_filter] at hf
        have hb := Kinds.block (hreg.kinds f hf.1) hf.2
        obtain ⟨c', nm, spec, s1, s2, s3⟩ := hso.slots f hf.1 hb
        obtain ⟨v, hv, hs⟩ := hfields f hf.1
        rw [htarget f hf.1] at hv
        cases hv
        exact oriStep_puts ih hord s1 s2 s3 (hother _ _ (by simp)) (fun x hx => (hnf x hx).mono hl3) (hs.block hb)
          (get?_new hreg hf.1) (List.mem_map.2 ⟨_, hf.1, rfl⟩)
    have hnames : (items.map Prod.fst).Nodup := by
      have hdis := names_disjoint hreg
      rw [← hL, ← hN, ← hO] at hdis
      refine hdis.sublist ?_
      simp only [items, List.map_append, List.map_map]
      refine (List.Sublist.append ?_ (List.Sublist.refl _)).append (List.Sublist.refl _)
      split
      · rename_i hlen
        rw [List.map_map]
        have : (Prod.fst ∘ fun x : Fld × Bytes => (x.1.name, Val.str x.2, labelStep x)) = Fld.name ∘ Prod.fst := rfl
        rw [this, ← List.map_map, List.map_fst_zip (by omega)]
      · simp
    obtain ⟨fs', st', r1, r2, r3, r4, r5⟩ := runSteps_puts (G := During env ext root node h3 lf.ref) (K := K) (fs0 := fs0) (l := items)
      (fs := fs0) (st := ⟨h3, lf.ref⟩) hnames hputs hinit hfs0 (fun _ _ => rfl)
    have hfin : fs' = fs := by
      refine fields_ext (by rw [r3, hkeys]) (by rw [r3]; exact hreg.names) ?_
      intro k hk
      rw [r3] at hk
      obtain ⟨f, hf, rfl⟩ := List.mem_map.1 hk
      rcases hreg.kinds f hf with h | h | h
      · have hfl : f ∈ lf.labels := by rw [hL, List.mem_filter]; exact ⟨hf, h.is.1⟩
        by_cases hlen : labels.length = lf.labels.length
        · obtain ⟨s, hs⟩ : ∃ s, (f, s) ∈ lf.labels.zip labels := by
            have : f ∈ (lf.labels.zip labels).map Prod.fst := by rw [List.map_fst_zip (by omega)]; exact hfl
            obtain ⟨x, hx, rfl⟩ := List.mem_map.1 this
            exact ⟨x.2, hx⟩
          rw [r4 (f.name, Val.str s, labelStep (f, s)) (by
            simp only [items, List.mem_append, if_pos hlen]
            exact Or.inl (Or.inl (List.mem_map.2 ⟨_, hs, rfl⟩)))]
          exact (hlabels hlen _ hs).symm
        · have hl0 := hlab.2 (by rw [hL] at hlen; exact hlen) f (by rw [hL] at hfl; exact hfl)
          rw [hl0, r5, get?_new hreg hf, h.ty, hz]
          intro hm
          have hdis := names_disjoint hreg
          rw [← hL, ← hN, ← hO] at hdis
          rw [List.append_assoc] at hdis
          have h6 := (List.nodup_append.1 hdis).2.2 f.name (List.mem_map.2 ⟨f, hfl, rfl⟩)
          refine h6 f.name ?_ rfl
          simp only [items, if_neg hlen, List.nil_append, List.map_append, List.map_map] at hm
          exact hm
      · rw [r4 (f.name, target f, newStep (routed [] lf vals .plain) (f, target f)) (by
          simp only [items, List.mem_append]
          exact Or.inl (Or.inr (List.mem_map.2 ⟨f, by rw [hN, List.mem_filter]; exact ⟨hf, h.is.2.1⟩, rfl⟩)))]
        exact (htarget f hf).symm
      · rw [r4 (f.name, target f, oriStep env ext (decode env ext root m) [] lf body vals path node f) (by
          simp only [items, List.mem_append]
          exact Or.inr (List.mem_map.2 ⟨f, by rw [hO, List.mem_filter]; exact ⟨hf, h.is.2.2⟩, rfl⟩))]
        exact (htarget f hf).symm
    subst hfin
    refine ⟨st', ?_, r2.inv, ((hl1.trans hl2).trans hl3).trans r2.heap, hrs.trans r2.step⟩
    simp only [decode, decodeStruct, hprep, steps, hnull, hD, List.map_nil, List.append_nil]
    rw [hitems] at r1
    have hidle := runSteps_idle (l := lf.labels.map (labelAttrStep (routed [] lf vals .label))) (by
      intro s hs fs st
      obtain ⟨f, hf, rfl⟩ := List.mem_map.1 hs
      simp only [labelAttrStep, hother f.tag .label (by simp)]) fs0 ⟨h3, lf.ref⟩
    simp only [List.append_assoc] at r1 ⊢
    exact runSteps_append.2 ⟨_, _, hidle, r1⟩

end Verif.HclS
