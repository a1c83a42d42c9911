import Verif.Lemmas.HclStructTotal
import Verif.Spec.HclStructPanic
/-!
# Decoding HCL into a struct does not panic
-/
set_option linter.unusedSimpArgs false
set_option linter.unusedSectionVars false

namespace Verif.HclS
open Tree (Heap Le)
open Hcl (Cty Expr)
open Det (Cls CVal KeyTy insertK ltB)

/-! ## Expressions -/

theorem map_calm {α β : Type} {x : Except Fail α} (g : α → β) (h : x ≠ .error .panic) : x.map g ≠ .error .panic := by
  cases x with
  | error e => intro hx; exact h (by cases hx; rfl)
  | ok a => intro hx; cases hx

section
variable {ext : Ext} (he : Quiet ext)
include he

theorem evalL_calm {vars} : ∀ {l : List Expr}, (∀ e ∈ l, evalE ext vars e ≠ .error .panic) → evalL ext vars l ≠ .error .panic
  | [], _ => by simp [evalL]
  | e :: l, h => by
    simp only [evalL]
    split
    · rename_i x hx; intro hh; cases hh; exact h e (by simp) hx
    · exact map_calm _ (evalL_calm fun e he => h e (by simp [he]))

theorem evalO_calm {vars} : ∀ {m : List (Expr × Expr)} {acc}, (∀ e ∈ m, LitKey e.1) → (∀ e ∈ m, evalE ext vars e.2 ≠ .error .panic) →
    evalO ext vars m acc ≠ .error .panic
  | [], acc, _, _ => by simp [evalO]
  | (k, e) :: m, acc, hk, h => by
    have hrest := fun acc => evalO_calm (m := m) (acc := acc) (fun e he => hk e (by simp [he])) (fun e he => h e (by simp [he]))
    have hs : ∃ s, evalK ext vars k = .ok (.str s) := by
      cases hk (k, e) (by simp) with
      | ident => exact ⟨_, by rw [evalK]⟩
      | str => exact ⟨_, by rw [evalK]⟩
    obtain ⟨s, hs⟩ := hs
    simp only [evalO, hs]
    split
    · rename_i x hx; intro hh; cases hh; exact h (k, e) (by simp) hx
    · exact hrest _

theorem evalE_calm {vars e} (h : Keyed e) : evalE ext vars e ≠ .error .panic := by
  induction h with
  | str => simp [evalE]
  | num => simp [evalE]
  | ident =>
    simp only [evalE]
    split
    · rename_i x hx; cases rootOf_fail hx; simp
    · intro hh; cases follow_fail hh
  | neg =>
    simp only [evalE]
    unfold negOf
    split
    · simp
    · exact he.eval _ _
  | call =>
    simp only [evalE]
    unfold callOf
    split
    · simp
    · exact he.eval _ _
  | tuple _ ih => simp only [evalE]; exact map_calm _ (evalL_calm he ih)
  | object hk _ ih => simp only [evalE]; exact map_calm _ (evalO_calm he hk ih)

theorem evalAttrs_calm {root node} {attrs : List (Bytes × Attr)} (hk : ∀ a ∈ attrs, Keyed a.2.expr) : ∀ {ks h}, (∀ k ∈ ks, k ∈ GoMap.keys attrs) →
    Tree.Inv h → root < h.length → node < h.length → evalAttrs ext root node attrs ks h ≠ .error .panic
  | [], h, _, _, _, _ => by simp [evalAttrs]
  | k :: ks, h, hks, hi, hr, hn => by
    obtain ⟨a, ha⟩ := Option.isSome_iff_exists.1 (GoMap.get?_isSome.2 (hks k (by simp)))
    obtain ⟨vars, hv⟩ := Tree.variables_total hi hr
    simp only [evalAttrs, ha, hv]
    split
    · rename_i x hx; intro hh; cases hh; exact evalE_calm he (hk _ (GoMap.get?_mem ha)) hx
    rename_i cv _
    obtain ⟨h', ha', hi', hl'⟩ := Tree.le_addItem hi hn k cv
    rw [ha']
    simp only
    split
    · rename_i x hx
      intro hh; cases hh
      exact evalAttrs_calm hk (fun k hk => hks k (by simp [hk])) hi' (Nat.lt_of_lt_of_le hr hl'.length)
        (Nat.lt_of_lt_of_le hn hl'.length) hx
    · simp

theorem decodeLeaves_calm {val} : ∀ {fs}, decodeLeaves ext val fs ≠ .error .panic
  | [] => by simp [decodeLeaves]
  | f :: fs => by
    simp only [decodeLeaves]
    split
    · exact map_calm _ decodeLeaves_calm
    split
    · exact map_calm _ decodeLeaves_calm
    split
    · rename_i x hx; intro hh; cases hh; exact he.leaf _ _ hx
    · exact map_calm _ decodeLeaves_calm

theorem gohclDecode_calm {lf body val} (hn : (lf.news.map Fld.name).Nodup) : gohclDecode ext lf body val ≠ .error .panic := by
  simp only [gohclDecode]
  rw [if_neg (fun h => h hn)]
  repeat (split; · simp)
  exact decodeLeaves_calm he

end

theorem oriAttrs_calm {nulls lf vals node} : ∀ {ks h}, Tree.Inv h → node < h.length → oriAttrs nulls lf vals node ks h ≠ .error .panic
  | [], h, _, _ => by simp [oriAttrs]
  | k :: ks, h, hi, hn => by
    simp only [oriAttrs]
    split
    · exact oriAttrs_calm hi hn
    split
    · obtain ⟨h1, c, ha, hi1, hl1, _⟩ := Tree.le_addNode hi hn k
      rw [ha]
      exact oriAttrs_calm hi1 (Nat.lt_of_lt_of_le hn hl1.length)
    · simp

/-! ## The fields -/

theorem loopList_calm {env ext nulls deep} (hd : ∀ fs lf, deep fs lf ≠ .error .panic) : ∀ {fs : List Fld} lf,
    loopList env ext nulls deep fs lf ≠ .error .panic
  | [], lf => by simp [loopList]
  | f :: fs, lf => by
    have ih := loopList_calm (env := env) (ext := ext) (nulls := nulls) hd (fs := fs)
    simp only [loopList]
    split
    · exact ih _
    split
    · exact ih _
    split
    · exact ih _
    split
    · exact ih _
    split
    · split
      · simp
      · exact ih _
    split
    · split
      · split
        · rename_i x hx; intro hh; cases hh
          exact hd _ _ hx
        · exact ih _
      · exact ih _
    · exact ih _

theorem loopFields_calm {env ext nulls} : ∀ n fs lf, loopFields env ext nulls n fs lf ≠ .error .panic
  | 0, _, lf => loopList_calm (fun _ _ => by simp) lf
  | n + 1, _, lf => loopList_calm (loopFields_calm n) lf

/-- What the fields found so far are. -/
structure FieldKinds (env : Env) (names : Bytes → Option Nat) (obj : List (Bytes × CVal)) (S : Fld → Prop) (lf : LF) : Prop where
  labels : ∀ f ∈ lf.labels, S f ∧ IsLabel f
  news : ∀ f ∈ lf.news, S f ∧ Active f
  oris : ∀ f ∈ lf.oris, S f ∧ Active f ∧ ∃ v, GoMap.get? lf.obj f.name = some v ∧ SpecOf env obj f v
  decs : ∀ f ∈ lf.decs, S f ∧ Active f ∧ Generic f.ty
  obj : ∀ k, k ∉ lf.oris.map Fld.name → GoMap.get? lf.obj k = GoMap.get? obj k
  ref : RefOk env names lf.ref

section
variable {env : Env} {ext : Ext} {names : Bytes → Option Nat} {obj : List (Bytes × CVal)} {S : Fld → Prop}

theorem hasFields_new (c : Nat) : HasFields env c ((env.struct c).promoted.map fun f => (f.1, ext.zero f.2)) := by
  intro k hk
  simpa [GoMap.keys, List.map_map, Function.comp_def] using hk

theorem RefOk.set {ref : GoMap Bytes Tmpl} (h : RefOk env names ref) {s c} (hs : names s = some c) :
    RefOk env names (GoMap.set ref s (newOf env ext (.struct c))) := by
  intro x t hx
  rw [GoMap.get?_set] at hx
  split at hx
  · rename_i he
    subst he
    cases hx
    exact Or.inr ⟨c, _, rfl, hs, hasFields_new c⟩
  · exact h x t hx

/-- A field that goes to those given by blocks, with the specification of its type. -/
theorem FieldKinds.addOri {lf : LF} (hk : FieldKinds env names obj S lf) {f : Fld} (hS : S f) (ha : Active f)
    (hnew : f.name ∉ lf.oris.map Fld.name) (hobj : GoMap.get? obj f.name = none) {s c v} (hown : Own env f.ty s c v)
    (hs : names s = some c) : FieldKinds env names obj S (lf.addOri f s (newOf env ext (.struct c)) v) where
  labels := hk.labels
  news := hk.news
  decs := hk.decs
  oris := by
    intro g hg
    simp only [LF.addOri, List.mem_append, List.mem_singleton] at hg ⊢
    rcases hg with hg | rfl
    · obtain ⟨h1, h2, w, h3, h4⟩ := hk.oris g hg
      refine ⟨h1, h2, w, ?_, h4⟩
      rw [GoMap.get?_set_ne]
      · exact h3
      · intro he
        exact hnew (he ▸ List.mem_map_of_mem hg)
    · exact ⟨hS, ha, v, GoMap.get?_set_self _ _ _, .own hobj hown⟩
  obj := by
    intro k hk'
    simp only [LF.addOri, List.map_append, List.mem_append, List.map_cons, List.map_nil, List.mem_singleton, not_or] at hk' ⊢
    rw [GoMap.get?_set_ne (Ne.symm hk'.2)]
    exact hk.obj k hk'.1
  ref := hk.ref.set hs

theorem FieldKinds.addNews {lf : LF} (hk : FieldKinds env names obj S lf) {f : Fld} (hS : S f) (ha : Active f) :
    FieldKinds env names obj S { lf with news := lf.news ++ [f] } where
  labels := hk.labels
  news := by
    intro g hg
    rcases List.mem_append.1 hg with hg | hg
    · exact hk.news g hg
    · rw [List.mem_singleton.1 hg]; exact ⟨hS, ha⟩
  decs := hk.decs
  oris := hk.oris
  obj := hk.obj
  ref := hk.ref

theorem FieldKinds.addDecs {lf : LF} (hk : FieldKinds env names obj S lf) {f : Fld} (hS : S f) (ha : Active f) (hg : Generic f.ty) :
    FieldKinds env names obj S { lf with decs := lf.decs ++ [f] } where
  labels := hk.labels
  news := hk.news
  decs := by
    intro g hg'
    rcases List.mem_append.1 hg' with hg' | hg'
    · exact hk.decs g hg'
    · rw [List.mem_singleton.1 hg']; exact ⟨hS, ha, hg⟩
  oris := hk.oris
  obj := hk.obj
  ref := hk.ref

theorem FieldKinds.addLabel {lf : LF} (hk : FieldKinds env names obj S lf) {f : Fld} (hS : S f) (ha : IsLabel f) :
    FieldKinds env names obj S { lf with labels := lf.labels ++ [f] } where
  labels := by
    intro g hg
    rcases List.mem_append.1 hg with hg | hg
    · exact hk.labels g hg
    · rw [List.mem_singleton.1 hg]; exact ⟨hS, ha⟩
  news := hk.news
  decs := hk.decs
  oris := hk.oris
  obj := hk.obj
  ref := hk.ref

theorem FieldKinds.addGiven {lf : LF} (hk : FieldKinds env names obj S lf) {f : Fld} (hS : S f) (ha : Active f)
    (hnew : f.name ∉ lf.oris.map Fld.name) (hsome : (GoMap.get? lf.obj f.name).isSome) :
    FieldKinds env names obj S { lf with oris := lf.oris ++ [f] } where
  labels := hk.labels
  news := hk.news
  decs := hk.decs
  oris := by
    intro g hg
    rcases List.mem_append.1 hg with hg | hg
    · exact hk.oris g hg
    · rw [List.mem_singleton.1 hg]
      obtain ⟨v, hv⟩ := Option.isSome_iff_exists.1 hsome
      exact ⟨hS, ha, v, hv, .given (by rw [← hk.obj _ hnew]; exact hv)⟩
  obj := by
    intro k hk'
    simp only [List.map_append, List.mem_append, not_or] at hk'
    exact hk.obj k hk'.1
  ref := hk.ref

theorem FieldKinds.addElem {lf : LF} (hk : FieldKinds env names obj S lf) {f : Fld} (hS : S f) (ha : Active f)
    (hnew : f.name ∉ lf.oris.map Fld.name) (hobj : GoMap.get? obj f.name = none) {e : Ty} (he : Elem e) {v : Bytes → CVal}
    (hown : ∀ s c, ElemClass env e s c → Own env f.ty s c (v s)) (hnamed : ∀ s c v, Own env f.ty s c v → names s = some c) :
    FieldKinds env names obj S (lf.addElem f (elemKind env ext e) v) := by
  cases he with
  | struct => exact hk.addOri hS ha hnew hobj (hown _ _ .struct) (hnamed _ _ _ (hown _ _ .struct))
  | ptr => exact hk.addOri hS ha hnew hobj (hown _ _ .ptr) (hnamed _ _ _ (hown _ _ .ptr))
  | str => exact hk.addNews hS ha
  | leaf => exact hk.addNews hS ha
  | slice => exact hk.addNews hS ha
  | map => exact hk.addNews hS ha

theorem FieldKinds.addTagged {lf : LF} (hk : FieldKinds env names obj S lf) {f : Fld} (hS : S f) (ha : Active f)
    (hnew : f.name ∉ lf.oris.map Fld.name) (hobj : GoMap.get? obj f.name = none) (hu : Usual f.ty)
    (hnamed : ∀ s c v, Own env f.ty s c v → names s = some c) : FieldKinds env names obj S (lf.addTagged env ext f) := by
  obtain ⟨name, upper, raw, ty⟩ := f
  simp only at hu hnamed hobj hnew
  cases hu with
  | str => exact hk.addNews hS ha
  | leaf => exact hk.addNews hS ha
  | struct => exact hk.addOri hS ha hnew hobj .struct (hnamed _ _ _ .struct)
  | any => exact hk.addNews hS ha
  | iface => exact hk.addNews hS ha
  | @ptr t h1 h2 =>
    cases t with
    | struct c => exact hk.addOri hS ha hnew hobj .ptr (hnamed _ _ _ .ptr)
    | slice e => exact absurd rfl (h1 e)
    | map k e => exact absurd rfl (h2 k e)
    | _ => exact hk.addNews hS ha
  | slice he => exact hk.addElem hS ha hnew hobj he (fun s c h => .slice h) hnamed
  | @map k e he =>
    cases k with
    | str2 => exact hk.addElem hS ha hnew hobj he (fun s c h => .map2 h) hnamed
    | str => exact hk.addElem hS ha hnew hobj he (fun s c h => .map (by simp) h) hnamed
    | other => exact hk.addElem hS ha hnew hobj he (fun s c h => .map (by simp) h) hnamed
  | generic hg =>
    have hg' := hg
    rcases hg with rfl | rfl
    · exact hk.addDecs hS ha hg'
    · exact hk.addDecs hS ha hg'

/-- What is needed of the fields. -/
structure FieldsOk (env : Env) (names : Bytes → Option Nat) (obj : List (Bytes × CVal)) (S : Fld → Prop) : Prop where
  usual : ∀ f, S f → Active f → f.tag ≠ [] → GoMap.get? obj f.name = none → Usual f.ty
  named : ∀ f, S f → ∀ s c v, Own env f.ty s c v → names s = some c

def KindsKept (env : Env) (names : Bytes → Option Nat) (obj : List (Bytes × CVal)) (S : Fld → Prop) (r : LF → Except Fail LF) (fl : List Fld) : Prop :=
  ∀ lf lf', (∀ f ∈ fl, S f) → ((lf.all ++ fl).map Fld.name).Nodup → FieldKinds env names obj S lf → r lf = .ok lf' → FieldKinds env names obj S lf'

theorem nodup_of_found {all all' l fl rest : List Fld} (hp : all'.Perm (all ++ l)) (hs : l.Sublist fl)
    (h : ((all ++ (fl ++ rest)).map Fld.name).Nodup) : ((all' ++ rest).map Fld.name).Nodup := by
  rw [((hp.append_right rest).map Fld.name).nodup_iff]
  have : (all ++ l ++ rest).Sublist (all ++ (fl ++ rest)) := by
    rw [List.append_assoc]
    exact List.Sublist.append (List.Sublist.refl _) (List.Sublist.append hs (List.Sublist.refl _))
  exact (this.map Fld.name).nodup h

theorem loopList_kinds {nulls deep} {deepFlat : List Fld → List Fld} (hok : FieldsOk env names obj S)
    (hf : ∀ fs lf, FoundIn (deep fs lf) lf (deepFlat fs)) (hd : ∀ fs, KindsKept env names obj S (deep fs) (deepFlat fs)) :
    ∀ fs, KindsKept env names obj S (loopList env ext nulls deep fs) (flatList env deepFlat fs)
  | [] => by intro lf lf' _ _ hk h; cases h; exact hk
  | f :: fs => by
    intro lf lf' hS hn hk h
    have ih := loopList_kinds (nulls := nulls) hok hf hd fs
    simp only [flatList] at hS hn
    have hSr : ∀ f ∈ flatList env deepFlat fs, S f := fun g hg => hS g (List.mem_append_right _ hg)
    have hnr : ((lf.all ++ flatList env deepFlat fs).map Fld.name).Nodup :=
      nodup_of_found (l := []) (by simp) (List.nil_sublist _) hn
    simp only [loopList] at h
    have plain : (f.tag ≠ [] ∨ lower f.what = b "label" ∨ f.ty.structOf = none) → f.upper = true →
        flatOne env deepFlat f = [f] := by
      intro hc hu
      rw [flatOne, if_neg (by simp [hu])]
      split
      · rename_i h1
        rcases hc with hc | hc | hc
        · exact absurd h1.1 hc
        · exact absurd hc h1.2
        · rw [hc]
      · rfl
    have new : flatOne env deepFlat f = [f] → f.name ∉ lf.oris.map Fld.name := by
      intro hone hmem
      rw [hone] at hn
      obtain ⟨g, hg, he⟩ := List.mem_map.1 hmem
      rw [List.map_append, List.nodup_append] at hn
      refine hn.2.2 g.name (List.mem_map_of_mem ?_) f.name (by simp) he
      simp only [LF.all, List.mem_append]
      exact Or.inl (Or.inr hg)
    have step : ∀ {lf1 : LF}, flatOne env deepFlat f = [f] → lf1.all.Perm (lf.all ++ [f]) →
        ((lf1.all ++ flatList env deepFlat fs).map Fld.name).Nodup := by
      intro lf1 hone hp
      rw [hone] at hn
      exact nodup_of_found hp (List.Sublist.refl _) hn
    split at h
    · exact ih _ _ hSr hnr hk h
    rename_i hup
    have hup : f.upper = true := by simpa using hup
    split at h
    · exact ih _ _ hSr hnr hk h
    split at h
    · rename_i hl
      have hone := plain (Or.inr (Or.inl hl)) hup
      exact ih _ _ hSr (step hone (all_label lf f)) (hk.addLabel (hS f (by simp [hone])) hl) h
    rename_i hlab
    split at h
    · exact ih _ _ hSr hnr hk h
    rename_i hdash
    have ha : Active f := ⟨hlab, fun he => hdash (Or.inl he)⟩
    split at h
    · rename_i hsome
      split at h
      · cases h
      · rename_i hu
        have hone := plain (by
          by_cases ht : f.tag = []
          · right; right
            cases hs : f.ty.structOf with
            | none => rfl
            | some c => exact absurd ⟨ht, by simp [hs]⟩ hu
          · left; exact ht) hup
        exact ih _ _ hSr (step hone (all_oris lf f)) (hk.addGiven (hS f (by simp [hone])) ha (new hone) hsome) h
    rename_i hnone
    split at h
    · rename_i ht
      split at h
      · rename_i c hc
        split at h
        · cases h
        · rename_i lf1 hdeep
          have hone : flatOne env deepFlat f = deepFlat (env.struct c).fields := by
            rw [flatOne, if_neg (by simp [hup]), if_pos ⟨ht, hlab⟩, hc]
          rw [hone] at hn hS
          obtain ⟨l1, p1, s1⟩ := hf _ _ _ hdeep
          refine ih lf1 lf' hSr (nodup_of_found p1 s1 hn) (hd _ lf lf1 (fun g hg => hS g (List.mem_append_left _ hg)) ?_ hk hdeep) h
          rw [← List.append_assoc, List.map_append] at hn
          exact (List.nodup_append.1 hn).1
      · exact ih _ _ hSr hnr hk h
    · rename_i ht
      have hone := plain (Or.inl ht) hup
      have hSf := hS f (by simp [hone])
      have hobj : GoMap.get? obj f.name = none := by
        rw [← hk.obj _ (new hone)]; simpa using hnone
      exact ih _ _ hSr (step hone (all_addTagged ..))
        (hk.addTagged hSf ha (new hone) hobj (hok.usual f hSf ha ht hobj) (hok.named f hSf)) h

theorem loopFields_kinds {nulls} (hok : FieldsOk env names obj S) :
    ∀ n fs, KindsKept env names obj S (loopFields env ext nulls n fs) (flat env n fs)
  | 0, fs => loopList_kinds hok (fun _ _ _ h => by cases h) (fun _ _ _ _ _ _ h => by cases h) fs
  | n + 1, fs => loopList_kinds hok (loopFields_found n) (loopFields_kinds hok n) fs

end

/-! ## Blocks -/

/-- The tree has grown and is valid, the classes are right. -/
structure Sound (env : Env) (names : Bytes → Option Nat) (h0 : Heap Cty) (st : St) : Prop where
  inv : Tree.Inv st.heap
  le : Le h0 st.heap
  ref : RefOk env names st.ref

theorem Sound.trans {env names h0 st st'} (h : Sound env names h0 st) (h' : Sound env names st.heap st') : Sound env names h0 st' :=
  ⟨h'.inv, h.le.trans h'.le, h'.ref⟩

def RecSafe (env : Env) (ext : Ext) (names : Bytes → Option Nat) (root : Nat) (rec : Rec) : Prop :=
  ∀ path st node c fs obj labels body, Tree.Inv st.heap → RefOk env names st.ref → node < st.heap.length → root < st.heap.length →
    HasFields env c fs → Fine env ext names c obj body →
    (rec path st node c fs obj labels body).2 ≠ .error .panic ∧
    ∀ out st', rec path st node c fs obj labels body = (out, .ok st') → Sound env names st.heap st'

/-- What a block needs, for a field of type `ty` with specification `v`. -/
structure BlkFine (env : Env) (ext : Ext) (names : Bytes → Option Nat) (h0 : Heap Cty) (node : Nat) (tag : Bytes) (ty : Ty) (v : CVal)
    (blk : Blk) : Prop where
  shape : Shape ty v blk.labels
  storable : ∀ ety cls c, Into ty v blk.labels ety cls → names cls.name = some c → Storable env ety c
  inner : ∀ ety cls c body, Into ty v blk.labels ety cls → names cls.name = some c → blk.body = some body →
    Fine env ext names c cls.fields body
  node : NodeFor h0 node tag blk.labels

/-- The result of a step on blocks. -/
def Safe {α : Type} (env : Env) (names : Bytes → Option Nat) (h0 : Heap Cty) (r : Except Fail (α × St)) : Prop :=
  r ≠ .error .panic ∧ ∀ a st', r = .ok (a, st') → Sound env names h0 st'

theorem Safe.map {α β : Type} {env names h0} {r : Except Fail (α × St)} (h : Safe env names h0 r) (g : α → β) :
    Safe env names h0 (r.map fun x => (g x.1, x.2)) := by
  refine ⟨map_calm _ h.1, ?_⟩
  intro a st' he
  obtain ⟨w, hw, hw'⟩ := map_ok' he
  cases hw'
  exact h.2 w.1 w.2 hw

section
variable {env : Env} {ext : Ext} {names : Bytes → Option Nat} {root node : Nat} {tag : Bytes} {h0 : Heap Cty} {rec : Rec}
  (hrec : RecSafe env ext names root rec) (hroot : root < h0.length) (hnode : node < h0.length)
include hrec hroot hnode

theorem decodeBlock_safe {ty v p st blk cls ml ety} (hs : Sound env names h0 st) (hb : BlkFine env ext names h0 node tag ty v blk)
    (hin : Into ty v blk.labels ety cls) :
    decodeBlock rec p st node tag blk cls ml ≠ .error .panic ∧
    ∀ c fs st', decodeBlock rec p st node tag blk cls ml = .ok ((c, fs), st') → Storable env ety c ∧ Sound env names h0 st' := by
  have hlt : node < st.heap.length := Nat.lt_of_lt_of_le hnode hs.le.length
  obtain ⟨sub, hsub, hget⟩ := (hb.node.mono hs.le).get hs.inv hlt
  simp only [decodeBlock, hget]
  cases href : GoMap.get? st.ref cls.name with
  | none => simp
  | some t =>
    rcases hs.ref _ _ href with rfl | ⟨c, content, rfl, hname, hfields⟩
    · simp
    simp only
    split
    · simp
    cases hbody : blk.body with
    | none => simp
    | some body =>
      simp only
      obtain ⟨h1, h2⟩ := hrec p st sub c content cls.fields blk.labels body hs.inv hs.ref hsub
        (Nat.lt_of_lt_of_le hroot hs.le.length) hfields (hb.inner _ _ _ _ hin hname hbody)
      generalize rec p st sub c content cls.fields blk.labels body = r at h1 h2
      obtain ⟨fs, out⟩ := r
      cases out with
      | error e =>
        refine ⟨fun hh => h1 ?_, ?_⟩
        · cases hh; rfl
        · intro c' fs' st' hh; cases hh
      | ok st1 =>
        refine ⟨by simp, ?_⟩
        intro c' fs' st' hh
        cases hh
        exact ⟨hb.storable _ _ _ hin hname, hs.trans (h2 _ _ rfl)⟩

omit hrec hroot hnode in
theorem Storable.store {ty c} (h : Storable env ty c) (fs) : ∃ v, store env ty c fs = .ok v := by
  obtain ⟨v, hv⟩ := h fs
  cases hv with
  | any => exact ⟨_, rfl⟩
  | iface hi => exact ⟨.ref c fs, by simp only [HclS.store, hi, if_true]⟩
  | ptr => exact ⟨.ref c fs, by simp only [HclS.store, if_true]⟩
  | struct => exact ⟨.inst c fs, by simp only [HclS.store, if_true]⟩

theorem listLoop_safe {path e first l} : ∀ {blks cs st}, (∀ c ∈ cs, c ∈ first :: l) →
    (∀ blk ∈ blks, BlkFine env ext names h0 node tag (.slice e) (.list (first :: l)) blk) → Sound env names h0 st →
    Safe env names h0 (listLoop env rec path node tag e first cs blks st)
  | [], cs, st, _, _, hs => ⟨by simp [listLoop], fun a st' h => by cases h; exact hs⟩
  | blk :: blks, cs, st, hcs, hb, hs => by
    have hin : Into (.slice e) (.list (first :: l)) blk.labels e (cs.headD first) := by
      refine .slice ?_
      cases cs with
      | nil => simp
      | cons c cs => exact hcs c (by simp)
    obtain ⟨h1, h2⟩ := decodeBlock_safe hrec hroot hnode (p := place path tag blks) (ml := none) hs (hb blk (by simp)) hin
    simp only [listLoop]
    cases hd : decodeBlock rec (place path tag blks) st node tag blk (cs.headD first) none with
    | error x => exact ⟨fun hh => h1 (by rw [hd]; cases hh; rfl), fun a st' hh => by cases hh⟩
    | ok w =>
      obtain ⟨⟨c, fs⟩, st1⟩ := w
      obtain ⟨hst, hs1⟩ := h2 _ _ _ hd
      obtain ⟨v, hv⟩ := hst.store fs
      simp only [hv]
      obtain ⟨h3, h4⟩ := listLoop_safe (path := path) (blks := blks) (cs := cs.tail) (fun c hc => hcs c (List.mem_of_mem_tail hc))
        (fun b hb' => hb b (by simp [hb'])) hs1
      generalize listLoop env rec path node tag e first cs.tail blks st1 = r at h3 h4
      cases r with
      | error x => exact ⟨fun hh => h3 (by cases hh; rfl), fun a st' hh => by cases hh⟩
      | ok w => exact ⟨by simp, fun a st' hh => by cases hh; exact h4 _ _ rfl⟩

theorem listMapLoop_safe {path e first l} : ∀ {blks st acc},
    (∀ blk ∈ blks, BlkFine env ext names h0 node tag (.map .str e) (.list (first :: l)) blk) → Sound env names h0 st →
    Safe env names h0 (listMapLoop env rec path node tag .str e first blks st acc)
  | [], st, acc, _, hs => ⟨by simp [listMapLoop], fun a st' h => by cases h; exact hs⟩
  | blk :: blks, st, acc, hb, hs => by
    have hin : Into (.map .str e) (.list (first :: l)) blk.labels e first := .listMap
    obtain ⟨h1, h2⟩ := decodeBlock_safe hrec hroot hnode (p := place path tag blks) (ml := none) hs (hb blk (by simp)) hin
    have hsh := (hb blk (by simp)).shape
    simp only [listMapLoop]
    cases hd : decodeBlock rec (place path tag blks) st node tag blk first none with
    | error x => exact ⟨fun hh => h1 (by rw [hd]; cases hh; rfl), fun a st' hh => by cases hh⟩
    | ok w =>
      obtain ⟨⟨c, fs⟩, st1⟩ := w
      obtain ⟨hst, hs1⟩ := h2 _ _ _ hd
      obtain ⟨v, hv⟩ := hst.store fs
      generalize blk.labels = labels at hsh
      cases hsh with
      | listMap =>
        simp only [hv, if_true]
        exact listMapLoop_safe (fun b hb' => hb b (by simp [hb'])) hs1

theorem mapLoop_safe {path e m first} (hfirst : ∃ c, first = some c ∧ ∃ y, (y, c) ∈ m) : ∀ {blks st acc},
    (∀ blk ∈ blks, BlkFine env ext names h0 node tag (.map .str e) (.map m) blk) → Sound env names h0 st →
    Safe env names h0 (mapLoop env rec path node tag .str e m first blks st acc)
  | [], st, acc, _, hs => ⟨by simp [mapLoop], fun a st' h => by cases h; exact hs⟩
  | blk :: blks, st, acc, hb, hs => by
    have hsh := (hb blk (by simp)).shape
    simp only [mapLoop]
    cases hlab : blk.labels with
    | nil =>
      rw [hlab] at hsh
      cases hsh with
      | notMap h => exact absurd rfl (h _ _)
    | cons x ls =>
      have hin : ∃ cls, (GoMap.get? m x).or first = some cls ∧ Into (.map .str e) (.map m) blk.labels e cls := by
        rw [hlab]
        cases hx : GoMap.get? m x with
        | some c => exact ⟨c, rfl, .map hx⟩
        | none =>
          obtain ⟨c, rfl, y, hy⟩ := hfirst
          exact ⟨c, rfl, .mapOther hx hy⟩
      obtain ⟨cls, hcls, hin⟩ := hin
      obtain ⟨h1, h2⟩ := decodeBlock_safe hrec hroot hnode (p := place path tag blks) (ml := some 1) hs (hb blk (by simp)) hin
      simp only [hcls, orPanic]
      cases hd : decodeBlock rec (place path tag blks) st node tag blk cls (some 1) with
      | error x => exact ⟨fun hh => h1 (by rw [hd]; cases hh; rfl), fun a st' hh => by cases hh⟩
      | ok w =>
        obtain ⟨⟨c, fs⟩, st1⟩ := w
        obtain ⟨hst, hs1⟩ := h2 _ _ _ hd
        obtain ⟨v, hv⟩ := hst.store fs
        simp only [hv, if_true]
        exact mapLoop_safe hfirst (fun b hb' => hb b (by simp [hb'])) hs1

theorem map2Loop_safe {path e m first ff} (hff : ∃ c, ff = some c ∧ ∃ x ∈ m, c ∈ x.2.map Prod.snd)
    (hf : ∀ x, first = some x → ∃ y, (y, x) ∈ m) : ∀ {blks st acc},
    (∀ blk ∈ blks, BlkFine env ext names h0 node tag (.map .str2 e) (.map2 m) blk) → Sound env names h0 st →
    Safe env names h0 (map2Loop env rec path node tag .str2 e m first ff blks st acc)
  | [], st, acc, _, hs => ⟨by simp [map2Loop], fun a st' h => by cases h; exact hs⟩
  | blk :: blks, st, acc, hb, hs => by
    simp only [map2Loop]
    have hin : ∃ cls, (GoMap.get? ((GoMap.get? m (blk.labels.getD 0 [])).getD (first.getD [])) (blk.labels.getD 1 [])).or ff = some cls ∧
        Into (.map .str2 e) (.map2 m) blk.labels e cls := by
      cases hx : GoMap.get? ((GoMap.get? m (blk.labels.getD 0 [])).getD (first.getD [])) (blk.labels.getD 1 []) with
      | none =>
        obtain ⟨c, rfl, x, hx, hc⟩ := hff
        obtain ⟨a, ha, rfl⟩ := List.mem_map.1 hc
        exact ⟨_, rfl, .map2 hx ha⟩
      | some c =>
        refine ⟨c, rfl, ?_⟩
        cases hg : GoMap.get? m (blk.labels.getD 0 []) with
        | some z =>
          rw [hg] at hx
          exact Into.map2 (GoMap.get?_mem hg) (GoMap.get?_mem hx)
        | none =>
          rw [hg] at hx
          cases hfi : first with
          | none => rw [hfi] at hx; cases hx
          | some z =>
            rw [hfi] at hx
            obtain ⟨y, hy⟩ := hf z hfi
            exact Into.map2 hy (GoMap.get?_mem hx)
    obtain ⟨cls, hcls, hin⟩ := hin
    obtain ⟨h1, h2⟩ := decodeBlock_safe hrec hroot hnode (p := place path tag blks) (ml := some 2) hs (hb blk (by simp)) hin
    simp only [hcls, orPanic]
    cases hd : decodeBlock rec (place path tag blks) st node tag blk cls (some 2) with
    | error x => exact ⟨fun hh => h1 (by rw [hd]; cases hh; rfl), fun a st' hh => by cases hh⟩
    | ok w =>
      obtain ⟨⟨c, fs⟩, st1⟩ := w
      obtain ⟨hst, hs1⟩ := h2 _ _ _ hd
      obtain ⟨v, hv⟩ := hst.store fs
      simp only [hv, if_true]
      exact map2Loop_safe hff hf (fun b hb' => hb b (by simp [hb'])) hs1

omit hrec hroot hnode in
theorem pick_some {α : Type} {o : List Bytes} {m : List (Bytes × α)} (ho : o.Perm (GoMap.keys m)) (hm : m ≠ []) :
    ∃ a, o.head?.bind (GoMap.get? m) = some a ∧ ∃ y, (y, a) ∈ m := by
  cases o with
  | nil =>
    have := ho.symm.eq_nil
    cases m with
    | nil => exact absurd rfl hm
    | cons x m => cases this
  | cons k o =>
    obtain ⟨a, ha⟩ := Option.isSome_iff_exists.1 (GoMap.get?_isSome.2 (ho.mem_iff.1 (by simp : k ∈ k :: o)))
    exact ⟨a, by simpa using ha, k, GoMap.get?_mem ha⟩

theorem oriValue_safe (hord : ∀ p l, (ext.ord p l).Perm l) {path ty v blk blks st}
    (hb : ∀ x ∈ blk :: blks, BlkFine env ext names h0 node tag ty v x) (hs : Sound env names h0 st) :
    Safe env names h0 (oriValue env ext rec path node tag ty v (blk :: blks) st) := by
  have hsh := (hb blk (by simp)).shape
  generalize blk.labels = labels at hsh
  cases hsh with
  | none => exact ⟨by simp [oriValue], fun a st' h => by cases h; exact hs⟩
  | @single _ cls =>
    simp only [oriValue]
    obtain ⟨h1, h2⟩ := decodeBlock_safe hrec hroot hnode (p := place path tag blks) (ml := none) hs (hb blk (by simp)) .single
    cases hd : decodeBlock rec (place path tag blks) st node tag blk cls none with
    | error x => exact ⟨fun hh => h1 (by rw [hd]; cases hh; rfl), fun a st' hh => by cases hh⟩
    | ok w =>
      obtain ⟨⟨c, fs⟩, st1⟩ := w
      obtain ⟨hst, hs1⟩ := h2 _ _ _ hd
      obtain ⟨w, hw⟩ := hst.store fs
      simp only [hw]
      exact ⟨by simp [Except.map], fun a st' h => by cases h; exact hs1⟩
  | slice =>
    simp only [oriValue]
    exact (listLoop_safe hrec hroot hnode (fun c h => h) hb hs).map fun x => some (Val.slice x)
  | listMap =>
    simp only [oriValue]
    exact (listMapLoop_safe hrec hroot hnode hb hs).map fun x => some (Val.map x)
  | @map _ m _ _ hm =>
    simp only [oriValue]
    refine (mapLoop_safe hrec hroot hnode ?_ hb hs).map fun x => some (Val.map x)
    obtain ⟨c, hc, hy⟩ := pick_some (hord (path ++ [tag]) (GoMap.keys m)) hm
    exact ⟨c, hc, hy⟩
  | notMap h =>
    cases ty with
    | map k e => exact absurd rfl (h k e)
    | _ => exact ⟨by simp [oriValue], fun a st' h => by cases h⟩
  | @map2 _ m _ hm hm2 =>
    simp only [oriValue]
    refine (map2Loop_safe hrec hroot hnode ?_ ?_ hb hs).map fun x => some (Val.map2 x)
    · obtain ⟨x, hx, y, hy⟩ := pick_some (hord (path ++ [tag]) (GoMap.keys m)) hm
      rw [hx]
      obtain ⟨c, hc, z, hz⟩ := pick_some (hord (path ++ [tag, tag]) (GoMap.keys x)) (hm2 _ hy)
      exact ⟨c, hc, (y, x), hy, List.mem_map.2 ⟨_, hz, rfl⟩⟩
    · intro x hx
      obtain ⟨x', hx', y, hy⟩ := pick_some (hord (path ++ [tag]) (GoMap.keys m)) hm
      rw [hx'] at hx
      cases hx
      exact ⟨y, hy⟩
  | notMap2 h =>
    cases ty with
    | map k e => exact absurd rfl (h k e)
    | _ => exact ⟨by simp [oriValue], fun a st' h => by cases h⟩

end

/-! ## The assignments -/

theorem setF_there {name v} : ∀ {fs : Fields}, name ∈ GoMap.keys fs → ∃ fs', setF name v fs = .ok fs' ∧ GoMap.keys fs' = GoMap.keys fs
  | [], h => by cases h
  | e :: r, h => by
    simp only [setF]
    by_cases he : e.1 = name
    · rw [if_pos he]
      exact ⟨_, rfl, by simp [GoMap.keys, he]⟩
    · rw [if_neg he]
      have : name ∈ GoMap.keys r := by
        rcases List.mem_cons.1 h with h | h
        · exact absurd h.symm he
        · exact h
      obtain ⟨fs', h1, h2⟩ := setF_there (v := v) this
      rw [h1]
      refine ⟨e :: fs', rfl, ?_⟩
      simp only [GoMap.keys, List.map_cons] at h2 ⊢
      rw [h2]

/-- An assignment that does not panic, keeps the names of the fields, and leaves a sound state. -/
def StepSafe (env : Env) (names : Bytes → Option Nat) (h0 : Heap Cty) (K : List Bytes) (s : Step) : Prop :=
  ∀ fs st, GoMap.keys fs = K → Sound env names h0 st → s fs st ≠ .error .panic ∧
    ∀ fs' st', s fs st = .ok (fs', st') → GoMap.keys fs' = K ∧ Sound env names h0 st'

theorem runSteps_safe {env names h0 K} : ∀ {l : List Step}, (∀ s ∈ l, StepSafe env names h0 K s) → ∀ {fs st}, GoMap.keys fs = K →
    Sound env names h0 st → (runSteps l fs st).2 ≠ .error .panic ∧ ∀ fs' st', runSteps l fs st = (fs', .ok st') → Sound env names h0 st'
  | [], _, fs, st, _, hs => ⟨by simp [runSteps], fun fs' st' h => by cases h; exact hs⟩
  | s :: l, hl, fs, st, hk, hs => by
    obtain ⟨h1, h2⟩ := hl s (by simp) fs st hk hs
    simp only [runSteps]
    cases hd : s fs st with
    | error e => exact ⟨fun hh => h1 (by rw [hd]; cases hh; rfl), fun fs' st' hh => by cases hh⟩
    | ok w =>
      obtain ⟨fs1, st1⟩ := w
      obtain ⟨h3, h4⟩ := h2 _ _ hd
      exact runSteps_safe (fun s hs => hl s (by simp [hs])) h3 h4

section
variable {env : Env} {names : Bytes → Option Nat} {h0 : Heap Cty} {K : List Bytes}

theorem set_safe {name v fs} {st : St} (hn : name ∈ K) (hk : GoMap.keys fs = K) (hs : Sound env names h0 st) :
    (setF name v fs).map (fun fs => (fs, st)) ≠ .error .panic ∧
    ∀ fs' st', (setF name v fs).map (fun fs => (fs, st)) = .ok (fs', st') → GoMap.keys fs' = K ∧ Sound env names h0 st' := by
  obtain ⟨fs1, h1, h2⟩ := setF_there (v := v) (hk ▸ hn)
  rw [h1]
  refine ⟨by simp [Except.map], ?_⟩
  intro fs' st' h
  cases h
  exact ⟨h2.trans hk, hs⟩

theorem skip_safe {fs} {st : St} (hk : GoMap.keys fs = K) (hs : Sound env names h0 st) :
    (.ok (fs, st) : Except Fail (Fields × St)) ≠ .error .panic ∧
    ∀ fs' st', (.ok (fs, st) : Except Fail (Fields × St)) = .ok (fs', st') → GoMap.keys fs' = K ∧ Sound env names h0 st' :=
  ⟨by simp, fun fs' st' h => by cases h; exact ⟨hk, hs⟩⟩

theorem labelAttrStep_safe {val : Bytes → Option Cty} {f : Fld} (hv : ∀ v, val f.tag = some v → ∃ s, v = .str s) (ht : f.ty = .str)
    (hn : f.name ∈ K) : StepSafe env names h0 K (labelAttrStep val f) := by
  intro fs st hk hs
  simp only [labelAttrStep]
  cases hval : val f.tag with
  | none => exact skip_safe hk hs
  | some v =>
    obtain ⟨s, rfl⟩ := hv v hval
    simp only [ht, if_true]
    exact set_safe hn hk hs

theorem labelStep_safe {x : Fld × Bytes} (ht : x.1.ty = .str) (hn : x.1.name ∈ K) : StepSafe env names h0 K (labelStep x) := by
  intro fs st hk hs
  obtain ⟨v, hv⟩ := Option.isSome_iff_exists.1 (GoMap.get?_isSome.2 (hk ▸ hn : x.1.name ∈ GoMap.keys fs))
  simp only [labelStep, getF, hv]
  split
  · rename_i h; cases h
  · simp only [ht, if_true]
    exact set_safe hn hk hs
  · exact skip_safe hk hs

theorem newStep_safe {val : Bytes → Option Cty} {x : Fld × Val} (hn : x.1.name ∈ K) : StepSafe env names h0 K (newStep val x) := by
  intro fs st hk hs
  simp only [newStep]
  split
  · exact set_safe hn hk hs
  · exact skip_safe hk hs

theorem decStep_safe {ext : Ext} (hdyn : DynAdds ext) {nulls lf body vals node} {f : Fld} (hg : Generic f.ty) (hn : f.name ∈ K)
    (hnode : node < h0.length)
    (ha : ∀ a, GoMap.get? body.attrs f.tag = some a → ∀ s h n, Tree.Inv h → n < h.length → ext.dynAttr s h n a.src ≠ .error .panic)
    (hb : ∀ x ∈ body.blocks, x.1 = f.tag → ∀ s h n, Tree.Inv h → n < h.length → ext.dynBlock s h n x.2.2 ≠ .error .panic) :
    StepSafe env names h0 K (decStep ext nulls lf body vals node f) := by
  intro fs st hk hs
  have hlt : node < st.heap.length := Nat.lt_of_lt_of_le hnode hs.le.length
  have fin : ∀ {r : Except Fail (Val × Heap Cty)}, r ≠ .error .panic →
      (∀ v h, r = .ok (v, h) → Tree.Inv h ∧ Le st.heap h) →
      (match some r with
        | none => .ok (fs, st)
        | some (.error e) => .error e
        | some (.ok (v, h)) =>
          if f.ty = .slice .any ∨ f.ty = .map .str .any then (setF f.name v fs).map fun fs => (fs, { st with heap := h })
          else .error .panic : Except Fail (Fields × St)) ≠ .error .panic ∧
      ∀ fs' st', (match some r with
        | none => .ok (fs, st)
        | some (.error e) => .error e
        | some (.ok (v, h)) =>
          if f.ty = .slice .any ∨ f.ty = .map .str .any then (setF f.name v fs).map fun fs => (fs, { st with heap := h })
          else .error .panic : Except Fail (Fields × St)) = .ok (fs', st') → GoMap.keys fs' = K ∧ Sound env names h0 st' := by
    intro r hr hl
    cases r with
    | error e => exact ⟨fun hh => hr (by cases hh; rfl), fun fs' st' hh => by cases hh⟩
    | ok w =>
      obtain ⟨v, h⟩ := w
      have hg' : f.ty = .slice .any ∨ f.ty = .map .str .any := hg
      simp only
      rw [if_pos hg']
      obtain ⟨h1, h2⟩ := hl v h rfl
      exact set_safe (st := { st with heap := h }) hn hk ⟨h1, hs.le.trans h2, hs.ref⟩
  have viaBlocks : (match (match body.blocks.filter fun x => x.1 = f.tag && !hasTag lf.oris x.1 with
          | x :: _ => some (ext.dynBlock (match f.ty with | .slice _ => true | _ => false) st.heap node x.2.2)
          | [] => none) with
        | none => .ok (fs, st)
        | some (.error e) => .error e
        | some (.ok (v, h)) =>
          if f.ty = .slice .any ∨ f.ty = .map .str .any then (setF f.name v fs).map fun fs => (fs, { st with heap := h })
          else .error .panic : Except Fail (Fields × St)) ≠ .error .panic ∧
      ∀ fs' st', (match (match body.blocks.filter fun x => x.1 = f.tag && !hasTag lf.oris x.1 with
          | x :: _ => some (ext.dynBlock (match f.ty with | .slice _ => true | _ => false) st.heap node x.2.2)
          | [] => none) with
        | none => .ok (fs, st)
        | some (.error e) => .error e
        | some (.ok (v, h)) =>
          if f.ty = .slice .any ∨ f.ty = .map .str .any then (setF f.name v fs).map fun fs => (fs, { st with heap := h })
          else .error .panic : Except Fail (Fields × St)) = .ok (fs', st') → GoMap.keys fs' = K ∧ Sound env names h0 st' := by
    cases hx : body.blocks.filter fun x => x.1 = f.tag && !hasTag lf.oris x.1 with
    | nil => exact skip_safe hk hs
    | cons x r =>
      have hmem : x ∈ body.blocks.filter fun x => x.1 = f.tag && !hasTag lf.oris x.1 := by rw [hx]; simp
      obtain ⟨hm, ht⟩ := List.mem_filter.1 hmem
      simp only [Bool.and_eq_true, decide_eq_true_eq] at ht
      exact fin (hb x hm ht.1 _ _ _ hs.inv hlt) (fun v h he => hdyn.block _ _ _ _ _ _ hs.inv he)
  simp only [decStep]
  cases hr : routed nulls lf vals .dec f.tag with
  | none => exact viaBlocks
  | some cv =>
    cases hat : GoMap.get? body.attrs f.tag with
    | none => exact viaBlocks
    | some a => exact fin (ha a hat _ _ _ hs.inv hlt) (fun v h he => hdyn.attr _ _ _ _ _ _ hs.inv he)

theorem oriStep_safe {ext : Ext} {rec : Rec} {root node : Nat} (hrec : RecSafe env ext names root rec) (hroot : root < h0.length)
    (hnode : node < h0.length) (hord : ∀ p l, (ext.ord p l).Perm l) {nulls lf body vals path} {f : Fld} {v} (hn : f.name ∈ K)
    (hv : GoMap.get? lf.obj f.name = some v)
    (hb : ∀ x ∈ oriBlocks ext nulls lf body vals f.tag, BlkFine env ext names h0 node f.tag f.ty v x) :
    StepSafe env names h0 K (oriStep env ext rec nulls lf body vals path node f) := by
  intro fs st hk hs
  simp only [oriStep, hv, Option.getD_some]
  cases hx : oriBlocks ext nulls lf body vals f.tag with
  | nil => exact skip_safe hk hs
  | cons blk blks =>
    rw [hx] at hb
    obtain ⟨h1, h2⟩ := oriValue_safe hrec hroot hnode hord (path := path) hb hs
    simp only
    generalize oriValue env ext rec path node f.tag f.ty v (blk :: blks) st = r at h1 h2
    cases r with
    | error e => exact ⟨fun hh => h1 (by cases hh; rfl), fun fs' st' hh => by cases hh⟩
    | ok w =>
      obtain ⟨o, st1⟩ := w
      have hs1 := h2 _ _ rfl
      cases o with
      | none => exact skip_safe hk hs1
      | some w => exact set_safe hn hk hs1

end

/-! ## The whole -/

/-- What is known after the preparation. -/
structure PreFine (env : Env) (ext : Ext) (names : Bytes → Option Nat) (obj : List (Bytes × CVal)) (S : Fld → Prop) (node : Nat) (body : Body)
    (h0 : Heap Cty) (p : Pre) : Prop where
  kinds : FieldKinds env names obj S p.lf
  inv : Tree.Inv p.heap
  le : Le h0 p.heap
  blocks : ∀ x ∈ body.blocks, NodeFor p.heap node x.1 x.2.1
  attrs : ∀ k, (routed (nullKeys p.vals) p.lf p.vals .ori k).isSome → NodeFor p.heap node k []
  vals : ∀ k v, (k, v) ∈ p.vals → ∃ a vars, GoMap.get? body.attrs k = some a ∧ evalE ext vars a.expr = .ok v

theorem prepare_safe {env ext names n root st node cls obj path body} (hord : ∀ p l, (ext.ord p l).Perm l) (he : Quiet ext)
    (ht : TypesOk env names) (hf : Fine env ext names cls obj body) (hi : Tree.Inv st.heap) (href : RefOk env names st.ref)
    (hnode : node < st.heap.length) (hroot : root < st.heap.length) :
    prepare env ext n root st node cls obj path body ≠ .error .panic ∧
    ∀ p, prepare env ext n root st node cls obj path body = .ok p → PreFine env ext names obj (FieldOf env cls) node body st.heap p := by
  have hkeyed : ∀ a ∈ body.attrs, Keyed a.2.expr := by cases hf; assumption
  have husual : ∀ f, FieldOf env cls f → Active f → f.tag ≠ [] → GoMap.get? obj f.name = none → Usual f.ty := by cases hf; assumption
  have hok : FieldsOk env names obj (FieldOf env cls) := ⟨husual, ht.named cls⟩
  have hsub : ∀ s, ∀ k ∈ ext.ord (path ++ [s]) (GoMap.keys body.attrs), k ∈ GoMap.keys body.attrs := fun s k hk => (hord _ _).mem_iff.1 hk
  have hev := evalAttrs_calm he hkeyed (hsub (b "attributes")) hi hroot hnode
  have kindsOf : ∀ {vals lf}, loopFields env ext (nullKeys vals) n (env.struct cls).fields ⟨[], [], [], [], obj, st.ref⟩ = .ok lf →
      FieldKinds env names obj (FieldOf env cls) lf := by
    intro vals lf hl
    refine loopFields_kinds hok n _ _ _ (fun f hf => ⟨n, hf⟩) ?_ ?_ hl
    · exact ht.distinct n cls
    · exact ⟨(fun f h => by cases h), (fun f h => by cases h), (fun f h => by cases h), (fun f h => by cases h), (fun _ _ => rfl), href⟩
  constructor
  · simp only [prepare, prelude]
    cases hv : evalAttrs ext root node body.attrs (ext.ord (path ++ [b "attributes"]) (GoMap.keys body.attrs)) st.heap with
    | error e => exact fun hh => hev (by rw [hv]; cases hh; rfl)
    | ok w =>
      obtain ⟨vals, h1⟩ := w
      obtain ⟨hi1, hl1⟩ := evalAttrs_step hv hi
      have hn1 := Nat.lt_of_lt_of_le hnode hl1.length
      obtain ⟨h2, hb, hi2, hl2, _⟩ := addBlockNodes_sim (node := node) (blocks := body.blocks) hi1 hn1
      simp only [hb]
      cases hl : loopFields env ext (nullKeys vals) n (env.struct cls).fields ⟨[], [], [], [], obj, st.ref⟩ with
      | error e => exact fun hh => loopFields_calm _ _ _ (by rw [hl]; cases hh; rfl)
      | ok lf =>
        simp only
        have ho := oriAttrs_calm (nulls := nullKeys vals) (lf := lf) (vals := vals)
          (ks := ext.ord (path ++ [b "refresh"]) (GoMap.keys body.attrs)) hi2 (Nat.lt_of_lt_of_le hn1 hl2.length)
        split
        · rename_i x hx; intro hh; cases hh; exact ho hx
        have hnd := found_nodup (ht.distinct n cls) hl
        have hg := gohclDecode_calm he (lf := lf) (body := body) (val := routed (nullKeys vals) lf vals .plain) (by
          refine (List.Sublist.map Fld.name ?_).nodup hnd
          simp only [LF.all, List.append_assoc]
          exact (List.sublist_append_left _ _).trans (List.sublist_append_right _ _))
        split
        · rename_i x hx; intro hh; cases hh; exact hg hx
        · simp
  · intro p hp
    obtain ⟨h1, h2, hpre, hori, hheap, hraw⟩ := prepare_ok hp
    obtain ⟨h3, hv, hb, hl⟩ := prelude_ok hpre
    obtain ⟨hi1, hl1⟩ := evalAttrs_step hv hi
    have hn1 := Nat.lt_of_lt_of_le hnode hl1.length
    obtain ⟨h2', hb', hi2, hl2, hnb⟩ := addBlockNodes_sim (node := node) (blocks := body.blocks) hi1 hn1
    rw [hb] at hb'
    cases hb'
    obtain ⟨g, hg, hi3, hl3, hna⟩ := oriAttrs_sim (nulls := nullKeys p.vals) (lf := p.lf) (vals := p.vals)
      (ks := ext.ord (path ++ [b "refresh"]) (GoMap.keys body.attrs)) hi2 (Nat.lt_of_lt_of_le hn1 hl2.length) (oriAttrs_iter hori)
    rw [hori] at hg
    cases hg
    rw [← hheap] at hi3 hl3 hna
    refine ⟨kindsOf hl, hi3, (hl1.trans hl2).trans hl3, fun x hx => (hnb x hx).mono hl3, ?_, evalAttrs_value hv⟩
    intro k hk
    refine hna k ?_ hk
    have hkeys := evalAttrs_keys hv
    by_contra hno
    have hg : GoMap.get? p.vals k = none := by
      rw [GoMap.get?_eq_none]
      show k ∉ p.vals.map Prod.fst
      rw [hkeys, (hord _ _).mem_iff]
      exact fun hx => hno ((hord _ _).mem_iff.2 hx)
    simp only [routed, hg, ite_self] at hk
    cases hk

theorem decode_safe {env ext names root} (hord : ∀ p l, (ext.ord p l).Perm l) (he : Quiet ext) (hdyn : DynAdds ext) (ht : TypesOk env names) :
    ∀ n, RecSafe env ext names root (decode env ext root n)
  | 0 => by
    intro path st node c fs obj labels body _ _ _ _ _ _
    exact ⟨by simp [decode], fun out st' h => by cases h⟩
  | n + 1 => by
    intro path st node c fs obj labels body hi href hnode hroot hfs hfine
    have ih := decode_safe (root := root) hord he hdyn ht n
    obtain ⟨h1, h2⟩ := prepare_safe (n := n) (path := path) hord he ht hfine hi href hnode hroot
    simp only [decode, decodeStruct]
    cases hp : prepare env ext n root st node c obj path body with
    | error e => exact ⟨fun hh => h1 (by rw [hp]; cases hh; rfl), fun out st' hh => by cases hh⟩
    | ok p =>
      have hpf := h2 p hp
      have hnode' := Nat.lt_of_lt_of_le hnode hpf.le.length
      have hroot' := Nat.lt_of_lt_of_le hroot hpf.le.length
      have hthere : ∀ f, FieldOf env c f → IsLabel f ∨ Active f → f.name ∈ GoMap.keys fs := fun f hf ha => hfs _ (ht.here c f hf ha)
      simp only
      have hsteps : ∀ s ∈ steps env ext (decode env ext root n) p node labels path body,
          StepSafe env names p.heap (GoMap.keys fs) s := by
        intro s hs
        simp only [steps, List.mem_append] at hs
        rcases hs with (((hs | hs) | hs) | hs) | hs
        · obtain ⟨f, hf, rfl⟩ := List.mem_map.1 hs
          obtain ⟨hS, hlab⟩ := hpf.kinds.labels f hf
          refine labelAttrStep_safe ?_ (ht.label c f hS hlab) (hthere f hS (Or.inl hlab))
          intro v hv
          simp only [routed] at hv
          split at hv
          · rename_i hr
            obtain ⟨a, vars, ha, hev⟩ := hpf.vals _ _ (GoMap.get?_mem hv)
            have hl : v = .null ∨ ∃ s, v = .str s := by
              cases hfine with
              | mk keyed label usual dynAttr dynBlock shape storable inner => exact label f hS hlab a ha vars v hev
            rcases hl with rfl | hl
            · exfalso
              have : f.tag ∈ nullKeys p.vals := by
                simp only [nullKeys, List.mem_map, List.mem_filter]
                exact ⟨_, ⟨GoMap.get?_mem hv, rfl⟩, rfl⟩
              rw [route, if_pos this] at hr
              cases hr
            · exact hl
          · cases hv
        · simp only [labelSteps] at hs
          split at hs
          · obtain ⟨x, hx, rfl⟩ := List.mem_map.1 hs
            obtain ⟨hS, hlab⟩ := hpf.kinds.labels x.1 (List.of_mem_zip hx).1
            exact labelStep_safe (ht.label c _ hS hlab) (hthere _ hS (Or.inl hlab))
          · cases hs
        · obtain ⟨x, hx, rfl⟩ := List.mem_map.1 hs
          obtain ⟨hS, ha⟩ := hpf.kinds.news x.1 (List.of_mem_zip hx).1
          exact newStep_safe (hthere _ hS (Or.inr ha))
        · obtain ⟨f, hf, rfl⟩ := List.mem_map.1 hs
          obtain ⟨hS, ha, hg⟩ := hpf.kinds.decs f hf
          cases hfine with
          | mk keyed label usual dynAttr dynBlock shape storable inner =>
            exact decStep_safe hdyn hg (hthere f hS (Or.inr ha)) hnode' (dynAttr f hS hg) (dynBlock f hS hg)
        · obtain ⟨f, hf, rfl⟩ := List.mem_map.1 hs
          obtain ⟨hS, ha, v, hv, hspec⟩ := hpf.kinds.oris f hf
          refine oriStep_safe ih hroot' hnode' hord (hthere f hS (Or.inr ha)) hv ?_
          intro blk hblk
          cases hfine with
          | @mk _ _ attrs blocks keyed label usual dynAttr dynBlock shape storable inner =>
            have hfor : BlockFor ext attrs blocks f.tag blk ∧ NodeFor p.heap node f.tag blk.labels := by
              simp only [oriBlocks, Body.attrs, Body.blocks, List.mem_append, List.mem_map, List.mem_filter] at hblk
              rcases hblk with hblk | ⟨x, ⟨hx, htag⟩, rfl⟩
              · cases hr : routed (nullKeys p.vals) p.lf p.vals .ori f.tag with
                | none => rw [hr] at hblk; cases hblk
                | some cv =>
                  cases ha : GoMap.get? attrs f.tag with
                  | none => rw [hr, ha] at hblk; cases hblk
                  | some a =>
                    rw [hr, ha] at hblk
                    refine ⟨.attr ha hblk, ?_⟩
                    have hlab : blk.labels = [] := by
                      simp only [attrBlocks, List.mem_map] at hblk
                      obtain ⟨s, _, rfl⟩ := hblk
                      rfl
                    rw [hlab]
                    exact hpf.attrs f.tag (by rw [hr]; rfl)
              · have htag : x.1 = f.tag := by simpa using htag
                refine ⟨.block (by rw [← htag]; exact hx), ?_⟩
                rw [← htag]
                exact hpf.blocks x hx
            exact ⟨shape f v blk hS ha hspec hfor.1, fun ety cls c' => storable f v blk ety cls c' hS ha hspec hfor.1,
              fun ety cls c' body => inner f v blk ety cls c' body hS ha hspec hfor.1, hfor.2⟩
      obtain ⟨h3, h4⟩ := runSteps_safe hsteps rfl (⟨hpf.inv, .refl _, hpf.kinds.ref⟩ : Sound env names p.heap ⟨p.heap, p.lf.ref⟩)
      refine ⟨h3, fun out st' h => ?_⟩
      have := h4 _ _ h
      exact ⟨this.inv, hpf.le.trans this.le, this.ref⟩

end Verif.HclS
