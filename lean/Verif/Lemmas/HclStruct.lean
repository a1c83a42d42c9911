import Verif.Spec.HclStruct
import Verif.Lemmas.GoMap
import Verif.Lemmas.Det
import Mathlib.Data.List.Perm.Basic
set_option linter.unusedSimpArgs false

namespace Verif.HclS
open Tree (Heap)
open Hcl (Cty)
open Det (Cls CVal KeyTy insertK ltB)

/-! ## Assignments -/

theorem get?_setF {name v fs fs'} (h : setF name v fs = .ok fs') (x) :
    GoMap.get? fs' x = if x = name then some v else GoMap.get? fs x := by
  induction fs generalizing fs' with
  | nil => cases h
  | cons e r ih =>
    obtain ⟨k, w⟩ := e
    simp only [setF] at h
    split at h
    · rename_i hk
      cases h
      subst hk
      simp only [GoMap.get?]
      by_cases hx : x = k
      · simp [hx]
      · rw [if_neg hx, if_neg (Ne.symm hx), if_neg (Ne.symm hx)]
    · rename_i hk
      cases hs : setF name v r with
      | error e => rw [hs] at h; cases h
      | ok r' =>
        rw [hs] at h; cases h
        simp only [GoMap.get?, ih hs]
        by_cases hkx : k = x
        · subst hkx; rw [if_pos rfl, if_neg hk, if_pos rfl]
        · rw [if_neg hkx, if_neg hkx]

/-- A step that leaves a field as it is. -/
def Keeps (x : Bytes) (s : Step) : Prop :=
  ∀ fs st fs' st', s fs st = .ok (fs', st') → GoMap.get? fs' x = GoMap.get? fs x

theorem runSteps_keeps {x} : ∀ {l : List Step} {fs st fs' st'}, (∀ s ∈ l, Keeps x s) →
    runSteps l fs st = (fs', .ok st') → GoMap.get? fs' x = GoMap.get? fs x
  | [], _, _, _, _, _, h => by cases h; rfl
  | s :: l, fs, st, fs', st', hk, h => by
    simp only [runSteps] at h
    cases hs : s fs st with
    | error e => rw [hs] at h; cases h
    | ok r =>
      obtain ⟨fs1, st1⟩ := r
      rw [hs] at h
      rw [runSteps_keeps (fun t ht => hk t (List.mem_cons_of_mem _ ht)) h, hk s (List.mem_cons_self ..) _ _ _ _ hs]

theorem runSteps_append {l1 l2 : List Step} {fs st fs' st'} :
    runSteps (l1 ++ l2) fs st = (fs', .ok st') ↔
      ∃ fs1 st1, runSteps l1 fs st = (fs1, .ok st1) ∧ runSteps l2 fs1 st1 = (fs', .ok st') := by
  induction l1 generalizing fs st with
  | nil => simp [runSteps]
  | cons s l ih =>
    simp only [List.cons_append, runSteps]
    cases hs : s fs st with
    | error e => simp
    | ok r => simp only [ih]

theorem runSteps_cons {s : Step} {l : List Step} {fs st fs' st'} :
    runSteps (s :: l) fs st = (fs', .ok st') ↔
      ∃ fs1 st1, s fs st = .ok (fs1, st1) ∧ runSteps l fs1 st1 = (fs', .ok st') := by
  simp only [runSteps]
  cases hs : s fs st with
  | error e => simp
  | ok r => obtain ⟨a, c⟩ := r; simp

theorem mapSet_keeps {x name : Bytes} {v fs st fs' st'} (hx : x ≠ name)
    (h : (setF name v fs).map (fun fs => (fs, st)) = (.ok (fs', st') : Except Fail (Fields × St))) :
    GoMap.get? fs' x = GoMap.get? fs x := by
  cases hs : setF name v fs with
  | error e => rw [hs] at h; cases h
  | ok r => rw [hs] at h; cases h; rw [get?_setF hs, if_neg hx]

theorem labelAttrStep_keeps {x val f} (hx : x ≠ f.name) : Keeps x (labelAttrStep val f) := by
  intro fs st fs' st' h
  simp only [labelAttrStep] at h
  split at h
  · cases h; rfl
  · split at h
    · exact mapSet_keeps hx h
    · cases h
  · cases h

theorem labelStep_keeps {x p} (hx : x ≠ p.1.name) : Keeps x (labelStep p) := by
  intro fs st fs' st' h
  simp only [labelStep] at h
  split at h
  · cases h
  · split at h
    · exact mapSet_keeps hx h
    · cases h
  · cases h; rfl

theorem newStep_keeps {x val p} (hx : x ≠ p.1.name) : Keeps x (newStep val p) := by
  intro fs st fs' st' h
  simp only [newStep] at h
  split at h
  · exact mapSet_keeps hx h
  · cases h; rfl

theorem decStep_keeps {x ext nulls lf body vals node f} (hx : x ≠ f.name) :
    Keeps x (decStep ext nulls lf body vals node f) := by
  intro fs st fs' st' h
  simp only [decStep] at h
  split at h
  · cases h; rfl
  · cases h
  · split at h
    · exact mapSet_keeps hx h
    · cases h

theorem oriStep_keeps {x env ext rec nulls lf body vals path node f} (hx : x ≠ f.name) :
    Keeps x (oriStep env ext rec nulls lf body vals path node f) := by
  intro fs st fs' st' h
  simp only [oriStep] at h
  split at h
  · cases h; rfl
  · split at h
    · cases h
    · cases h; rfl
    · exact mapSet_keeps hx h

/-! ## The fields -/

theorem not_mem_takeWhile (s : Bytes) : (44 : UInt8) ∉ s.takeWhile (· ≠ 44) := by
  induction s with
  | nil => simp
  | cons c s ih =>
    rw [List.takeWhile_cons]
    split
    · rename_i hc
      simp only [List.mem_cons, not_or]
      exact ⟨fun h => (by rw [← h] at hc; simp at hc), ih⟩
    · simp

theorem tagLoop_noComma : ∀ l : List Bytes, (44 : UInt8) ∉ (tagLoop l).1
  | [] => by simp [tagLoop]
  | t :: ts => by
    simp only [tagLoop]
    split
    · exact not_mem_takeWhile _
    · exact tagLoop_noComma ts

theorem tag_noSuffix (f : Fld) : (b ",-").isSuffixOf f.tag = false := by
  rw [Bool.eq_false_iff]
  intro h
  rw [List.isSuffixOf_iff_suffix] at h
  have : (44 : UInt8) ∈ f.tag := h.subset (by decide)
  exact tagLoop_noComma _ this

/-- All fields that are found. -/
def LF.all (lf : LF) : List Fld := lf.labels ++ lf.news ++ lf.oris ++ lf.decs

theorem perm_insert {α : Type} (a c : List α) (f : α) : (a ++ (f :: c)).Perm (a ++ c ++ [f]) := by
  rw [List.append_assoc]
  exact List.Perm.append_left _ (List.perm_append_comm (l₁ := [f]) (l₂ := c))

theorem all_label (lf : LF) (f : Fld) : ({ lf with labels := lf.labels ++ [f] } : LF).all.Perm (lf.all ++ [f]) := by
  simp only [LF.all]
  have := perm_insert lf.labels (lf.news ++ (lf.oris ++ lf.decs)) f
  simpa [List.append_assoc] using this

theorem all_news (lf : LF) (f : Fld) : ({ lf with news := lf.news ++ [f] } : LF).all.Perm (lf.all ++ [f]) := by
  simp only [LF.all]
  have := perm_insert (lf.labels ++ lf.news) (lf.oris ++ lf.decs) f
  simpa [List.append_assoc] using this

theorem all_oris (lf : LF) (f : Fld) : ({ lf with oris := lf.oris ++ [f] } : LF).all.Perm (lf.all ++ [f]) := by
  simp only [LF.all]
  have := perm_insert (lf.labels ++ lf.news ++ lf.oris) lf.decs f
  simpa [List.append_assoc] using this

theorem all_decs (lf : LF) (f : Fld) : ({ lf with decs := lf.decs ++ [f] } : LF).all.Perm (lf.all ++ [f]) := by
  simp [LF.all, List.append_assoc]

theorem all_addOri (lf : LF) (f name tmpl v) : (lf.addOri f name tmpl v).all.Perm (lf.all ++ [f]) := all_oris lf f

theorem all_addElem (lf : LF) (f k v) : (lf.addElem f k v).all.Perm (lf.all ++ [f]) := by
  cases k with
  | cls name tmpl => exact all_addOri ..
  | dyn => exact all_decs lf f
  | plain => exact all_news lf f

theorem all_addTagged (env ext) (lf : LF) (f) : (lf.addTagged env ext f).all.Perm (lf.all ++ [f]) := by
  simp only [LF.addTagged]
  split
  · exact all_addOri ..
  · exact all_addElem ..
  · exact all_addElem ..
  · exact all_addElem ..
  · exact all_news lf f

/-- The found fields are fields of the struct, each at most once. -/
def FoundIn (r : Except Fail LF) (lf : LF) (fl : List Fld) : Prop :=
  ∀ lf', r = .ok lf' → ∃ l, lf'.all.Perm (lf.all ++ l) ∧ l.Sublist fl

theorem loopList_found {env ext nulls deep} {deepFlat : List Fld → List Fld}
    (hd : ∀ fs lf, FoundIn (deep fs lf) lf (deepFlat fs)) :
    ∀ fs lf, FoundIn (loopList env ext nulls deep fs lf) lf (flatList env deepFlat fs)
  | [], lf => by
    intro lf' h; cases h
    exact ⟨[], by simp, List.nil_sublist _⟩
  | f :: fs, lf => by
    intro lf' h
    have skip : ∀ {pre : List Fld}, loopList env ext nulls deep fs lf = .ok lf' →
        ∃ l, lf'.all.Perm (lf.all ++ l) ∧ l.Sublist (pre ++ flatList env deepFlat fs) := by
      intro pre h
      obtain ⟨l, h1, h2⟩ := loopList_found hd fs lf lf' h
      exact ⟨l, h1, h2.trans (List.sublist_append_right _ _)⟩
    have add : ∀ {lf1 : LF}, lf1.all.Perm (lf.all ++ [f]) → loopList env ext nulls deep fs lf1 = .ok lf' →
        ∃ l, lf'.all.Perm (lf.all ++ l) ∧ l.Sublist ([f] ++ flatList env deepFlat fs) := by
      intro lf1 hp h
      obtain ⟨l, h1, h2⟩ := loopList_found hd fs lf1 lf' h
      refine ⟨f :: l, ?_, by simpa using h2⟩
      refine h1.trans ((List.Perm.append_right l hp).trans ?_)
      simp
    simp only [loopList] at h
    simp only [flatList]
    have plain : (f.tag ≠ [] ∨ lower f.what = b "label" ∨ f.ty.structOf = none) → f.upper = true →
        flatOne env deepFlat f = [f] := by
      intro hc hu
      rw [flatOne, if_neg (by simp [hu])]
      split
      · rename_i h1
        rcases hc with hc | hc | hc
        · exact absurd h1.1 hc
        · exact absurd hc h1.2
        · rw [hc]
      · rfl
    split at h
    · exact skip h
    rename_i hup
    have hup : f.upper = true := by simpa using hup
    split at h
    · exact skip h
    split at h
    · -- a label
      rename_i hl
      rw [plain (Or.inr (Or.inl hl)) hup]; exact add (all_label lf f) h
    rename_i hlab
    split at h
    · exact skip h
    split at h
    · split at h
      · cases h
      · rename_i hu
        rw [plain (by
          by_cases ht : f.tag = []
          · right; right
            cases hs : f.ty.structOf with
            | none => rfl
            | some c => exact absurd ⟨ht, by simp [hs]⟩ hu
          · left; exact ht) hup]
        exact add (all_oris lf f) h
    split at h
    · rename_i ht
      split at h
      · rename_i c hc
        split at h
        · cases h
        · rename_i lf1 hdeep
          obtain ⟨l1, p1, s1⟩ := hd _ _ _ hdeep
          obtain ⟨l2, p2, s2⟩ := loopList_found hd fs lf1 lf' h
          refine ⟨l1 ++ l2, ?_, ?_⟩
          · refine p2.trans ((List.Perm.append_right l2 p1).trans ?_)
            simp
          · rw [flatOne, if_neg (by simp [hup]), if_pos ⟨ht, hlab⟩, hc]; exact List.Sublist.append s1 s2
      · exact skip h
    · rename_i ht
      rw [plain (Or.inl ht) hup]
      exact add (all_addTagged ..) h

theorem loopFields_found {env ext nulls} : ∀ n fs lf, FoundIn (loopFields env ext nulls n fs lf) lf (flat env n fs)
  | 0 => loopList_found (fun _ _ _ h => by cases h)
  | n + 1 => loopList_found (loopFields_found n)

/-- What `loopFields` does to the specification: entries are only added. -/
structure Grows (lf lf' : LF) : Prop where
  obj : ∀ k v, GoMap.get? lf.obj k = some v → GoMap.get? lf'.obj k = some v
  oris : ∀ f ∈ lf.oris, f ∈ lf'.oris
  labels : ∀ f ∈ lf.labels, f ∈ lf'.labels
  news : ∀ f ∈ lf.news, f ∈ lf'.news
  decs : ∀ f ∈ lf.decs, f ∈ lf'.decs

theorem Grows.refl (lf : LF) : Grows lf lf :=
  ⟨fun _ _ h => h, fun _ h => h, fun _ h => h, fun _ h => h, fun _ h => h⟩

theorem Grows.trans {a c d : LF} (h : Grows a c) (h' : Grows c d) : Grows a d :=
  ⟨fun k v x => h'.obj k v (h.obj k v x), fun f x => h'.oris f (h.oris f x), fun f x => h'.labels f (h.labels f x),
    fun f x => h'.news f (h.news f x), fun f x => h'.decs f (h.decs f x)⟩

theorem grows_label (lf : LF) (f) : Grows lf { lf with labels := lf.labels ++ [f] } :=
  ⟨fun _ _ h => h, fun _ h => h, fun _ h => List.mem_append_left _ h, fun _ h => h, fun _ h => h⟩

theorem grows_oris (lf : LF) (f) : Grows lf { lf with oris := lf.oris ++ [f] } :=
  ⟨fun _ _ h => h, fun _ h => List.mem_append_left _ h, fun _ h => h, fun _ h => h, fun _ h => h⟩

theorem grows_news (lf : LF) (f) : Grows lf { lf with news := lf.news ++ [f] } :=
  ⟨fun _ _ h => h, fun _ h => h, fun _ h => h, fun _ h => List.mem_append_left _ h, fun _ h => h⟩

theorem grows_decs (lf : LF) (f) : Grows lf { lf with decs := lf.decs ++ [f] } :=
  ⟨fun _ _ h => h, fun _ h => h, fun _ h => h, fun _ h => h, fun _ h => List.mem_append_left _ h⟩

theorem grows_addOri (lf : LF) (f : Fld) (name tmpl v) (hf : GoMap.get? lf.obj f.name = none) :
    Grows lf (lf.addOri f name tmpl v) := by
  refine ⟨fun k w h => ?_, fun _ h => List.mem_append_left _ h, fun _ h => h, fun _ h => h, fun _ h => h⟩
  simp only [LF.addOri, GoMap.get?_set]
  split
  · rename_i hk; subst hk; rw [hf] at h; cases h
  · exact h

theorem grows_addElem (lf : LF) (f : Fld) (k v) (hf : GoMap.get? lf.obj f.name = none) : Grows lf (lf.addElem f k v) := by
  cases k with
  | cls name tmpl => exact grows_addOri _ _ _ _ _ hf
  | dyn => exact grows_decs lf f
  | plain => exact grows_news lf f

theorem grows_addTagged (env ext) (lf : LF) (f : Fld) (hf : GoMap.get? lf.obj f.name = none) :
    Grows lf (lf.addTagged env ext f) := by
  simp only [LF.addTagged]
  split
  · exact grows_addOri _ _ _ _ _ hf
  · exact grows_addElem _ _ _ _ hf
  · exact grows_addElem _ _ _ _ hf
  · exact grows_addElem _ _ _ _ hf
  · exact grows_news lf f

theorem loopList_grows {env ext nulls deep} (hd : ∀ fs lf lf', deep fs lf = .ok lf' → Grows lf lf') :
    ∀ fs lf lf', loopList env ext nulls deep fs lf = .ok lf' → Grows lf lf'
  | [], lf, lf', h => by cases h; exact .refl lf
  | f :: fs, lf, lf', h => by
    simp only [loopList] at h
    split at h
    · exact loopList_grows hd fs _ _ h
    split at h
    · exact loopList_grows hd fs _ _ h
    split at h
    · exact (grows_label lf f).trans (loopList_grows hd fs _ _ h)
    split at h
    · exact loopList_grows hd fs _ _ h
    split at h
    · split at h
      · cases h
      · exact (grows_oris lf f).trans (loopList_grows hd fs _ _ h)
    rename_i hn
    split at h
    · split at h
      · split at h
        · cases h
        · rename_i hdeep
          exact (hd _ _ _ hdeep).trans (loopList_grows hd fs _ _ h)
      · exact loopList_grows hd fs _ _ h
    · exact (grows_addTagged env ext lf f (by simpa using hn)).trans (loopList_grows hd fs _ _ h)

theorem loopFields_grows {env ext nulls} : ∀ n fs lf lf', loopFields env ext nulls n fs lf = .ok lf' → Grows lf lf'
  | 0 => loopList_grows (fun _ _ _ h => by cases h)
  | n + 1 => loopList_grows (loopFields_grows n)

/-- A field with a tag, as the loop meets it. -/
theorem loopList_head {env ext nulls deep fs lf lf'} {f : Fld} (hf : Decodes f) (hn : f.tag ∉ nulls)
    (h : loopList env ext nulls deep (f :: fs) lf = .ok lf') :
    ((GoMap.get? lf.obj f.name).isSome ∧ loopList env ext nulls deep fs { lf with oris := lf.oris ++ [f] } = .ok lf') ∨
    (GoMap.get? lf.obj f.name = none ∧ loopList env ext nulls deep fs (lf.addTagged env ext f) = .ok lf') := by
  rw [loopList] at h
  rw [if_neg (by simp [hf.upper]), if_neg hn, if_neg hf.notLabel,
    if_neg (by rw [tag_noSuffix]; simpa using hf.notDash)] at h
  split at h
  · rename_i hs
    rw [if_neg (fun hc => hf.tag hc.1)] at h
    exact Or.inl ⟨hs, h⟩
  · rename_i hs
    rw [if_neg hf.tag] at h
    exact Or.inr ⟨by simpa using hs, h⟩

/-- Keys are only added to the specification for fields found. -/
def NewKeys (lf lf' : LF) : Prop :=
  ∀ k, (GoMap.get? lf'.obj k).isSome → (GoMap.get? lf.obj k).isSome ∨ k ∈ lf'.oris.map Fld.name

theorem newKeys_of_eq {lf lf' : LF} (h : lf'.obj = lf.obj) : NewKeys lf lf' := fun k hk => Or.inl (by rwa [h] at hk)

theorem newKeys_addOri (lf : LF) (f : Fld) (name tmpl v) : NewKeys lf (lf.addOri f name tmpl v) := by
  intro k hk
  simp only [LF.addOri, GoMap.get?_set] at hk ⊢
  by_cases hkn : f.name = k
  · right; simp [hkn]
  · rw [if_neg hkn] at hk; exact Or.inl hk

theorem newKeys_addElem (lf : LF) (f : Fld) (k v) : NewKeys lf (lf.addElem f k v) := by
  cases k with
  | cls name tmpl => exact newKeys_addOri _ _ _ _ _
  | dyn => exact newKeys_of_eq rfl
  | plain => exact newKeys_of_eq rfl

theorem newKeys_addTagged (env ext) (lf : LF) (f : Fld) : NewKeys lf (lf.addTagged env ext f) := by
  simp only [LF.addTagged]
  split
  · exact newKeys_addOri _ _ _ _ _
  · exact newKeys_addElem _ _ _ _
  · exact newKeys_addElem _ _ _ _
  · exact newKeys_addElem _ _ _ _
  · exact newKeys_of_eq rfl

theorem NewKeys.trans {a c d : LF} (h : NewKeys a c) (h' : NewKeys c d) (hg : Grows c d) : NewKeys a d := by
  intro k hk
  rcases h' k hk with h1 | h1
  · rcases h k h1 with h2 | h2
    · exact Or.inl h2
    · obtain ⟨f, hf, rfl⟩ := List.mem_map.1 h2
      exact Or.inr (List.mem_map.2 ⟨f, hg.oris _ hf, rfl⟩)
  · exact Or.inr h1

/-- What is known about the recursive call of `loopFields`. -/
structure Deep (deep : List Fld → LF → Except Fail LF) : Prop where
  grows : ∀ fs lf lf', deep fs lf = .ok lf' → Grows lf lf'
  found : ∃ df : List Fld → List Fld, ∀ fs lf, FoundIn (deep fs lf) lf (df fs)
  keys : ∀ fs lf lf', deep fs lf = .ok lf' → NewKeys lf lf'

theorem loopList_keys {env ext nulls deep} (hd : Deep deep) :
    ∀ fs lf lf', loopList env ext nulls deep fs lf = .ok lf' → NewKeys lf lf'
  | [], lf, lf', h => by cases h; exact newKeys_of_eq rfl
  | f :: fs, lf, lf', h => by
    have go : ∀ {lf1}, NewKeys lf lf1 → loopList env ext nulls deep fs lf1 = .ok lf' → NewKeys lf lf' := fun hk h =>
      hk.trans (loopList_keys hd fs _ _ h) (loopList_grows hd.grows fs _ _ h)
    simp only [loopList] at h
    split at h
    · refine go (newKeys_of_eq ?_) h; rfl
    split at h
    · refine go (newKeys_of_eq ?_) h; rfl
    split at h
    · refine go (newKeys_of_eq ?_) h; rfl
    split at h
    · refine go (newKeys_of_eq ?_) h; rfl
    split at h
    · split at h
      · cases h
      · refine go (newKeys_of_eq ?_) h; rfl
    split at h
    · split at h
      · split at h
        · cases h
        · rename_i hdeep
          exact go (hd.keys _ _ _ hdeep) h
      · refine go (newKeys_of_eq ?_) h; rfl
    · exact go (newKeys_addTagged _ _ _ _) h

theorem deep_hang : Deep (fun _ _ => .error .hang) :=
  ⟨(fun _ _ _ h => by cases h), ⟨fun _ => [], (fun _ _ _ h => by cases h)⟩, (fun _ _ _ h => by cases h)⟩

theorem deep_loopList {env ext nulls deep} (hd : Deep deep) : Deep (loopList env ext nulls deep) := by
  obtain ⟨df, hdf⟩ := hd.found
  exact ⟨loopList_grows hd.grows, ⟨flatList env df, loopList_found hdf⟩, loopList_keys hd⟩

theorem deep_loopFields {env ext nulls} : ∀ n, Deep (loopFields env ext nulls n)
  | 0 => deep_loopList deep_hang
  | n + 1 => deep_loopList (deep_loopFields n)

theorem loopList_at_keys {env ext nulls deep} (hd : Deep deep) {f : Fld} :
    ∀ fs lf lf', f ∈ fs → loopList env ext nulls deep fs lf = .ok lf' →
      ∃ lf1 fs2, Grows lf lf1 ∧ NewKeys lf lf1 ∧ loopList env ext nulls deep (f :: fs2) lf1 = .ok lf'
  | [], _, _, hf, _ => by cases hf
  | g :: fs, lf, lf', hf, h => by
    by_cases hgf : g = f
    · subst hgf; exact ⟨lf, fs, .refl lf, newKeys_of_eq rfl, h⟩
    have hf : f ∈ fs := (List.mem_cons.1 hf).resolve_left (fun h => hgf h.symm)
    have go : ∀ {lf1}, Grows lf lf1 → NewKeys lf lf1 → loopList env ext nulls deep fs lf1 = .ok lf' →
        ∃ lf1 fs2, Grows lf lf1 ∧ NewKeys lf lf1 ∧ loopList env ext nulls deep (f :: fs2) lf1 = .ok lf' :=
      fun {lf1} hg hk h =>
        let ⟨lf2, fs2, h1, h2, h3⟩ := loopList_at_keys hd fs lf1 lf' hf h
        ⟨lf2, fs2, hg.trans h1, hk.trans h2 h1, h3⟩
    rw [loopList] at h
    split at h
    · exact go (.refl lf) (newKeys_of_eq rfl) h
    split at h
    · exact go (.refl lf) (newKeys_of_eq rfl) h
    split at h
    · exact go (grows_label lf g) (newKeys_of_eq rfl) h
    split at h
    · exact go (.refl lf) (newKeys_of_eq rfl) h
    split at h
    · split at h
      · cases h
      · exact go (grows_oris lf g) (newKeys_of_eq rfl) h
    rename_i hn
    split at h
    · split at h
      · split at h
        · cases h
        · rename_i hdeep
          exact go (hd.grows _ _ _ hdeep) (hd.keys _ _ _ hdeep) h
      · exact go (.refl lf) (newKeys_of_eq rfl) h
    · exact go (grows_addTagged env ext lf g (by simpa using hn)) (newKeys_addTagged _ _ _ _) h

theorem loopFields_at {env ext nulls} {f : Fld} (n) {fs lf lf'} (hm : f ∈ fs)
    (h : loopFields env ext nulls n fs lf = .ok lf') :
    ∃ (deep : List Fld → LF → Except Fail LF) (lf1 : LF) (fs2 : List Fld), Deep deep ∧ Grows lf lf1 ∧ NewKeys lf lf1 ∧
      loopList env ext nulls deep (f :: fs2) lf1 = .ok lf' := by
  cases n with
  | zero =>
    obtain ⟨lf1, fs2, h1, h2⟩ := loopList_at_keys deep_hang fs lf lf' hm h
    exact ⟨_, lf1, fs2, deep_hang, h1, h2⟩
  | succ n =>
    obtain ⟨lf1, fs2, h1, h2⟩ := loopList_at_keys (deep_loopFields n) fs lf lf' hm h
    exact ⟨_, lf1, fs2, deep_loopFields n, h1, h2⟩

theorem loopList_perm {env ext nulls deep fs lf lf'} (hd : Deep deep)
    (h : loopList env ext nulls deep fs lf = .ok lf') : ∃ l, lf'.all.Perm (lf.all ++ l) := by
  obtain ⟨df, hdf⟩ := hd.found
  obtain ⟨l, h1, _⟩ := loopList_found hdf fs lf lf' h
  exact ⟨l, h1⟩

/-- A field without specification is treated by its type. -/
theorem loopFields_default {env ext nulls n fs lf lf'} {f : Fld} (hm : f ∈ fs) (hf : Decodes f) (hn : f.tag ∉ nulls)
    (hv : GoMap.get? lf.obj f.name = none) (h : loopFields env ext nulls n fs lf = .ok lf')
    (hnd : (lf'.all.map Fld.name).Nodup) :
    ∃ lf1 : LF, GoMap.get? lf1.obj f.name = none ∧ Grows (lf1.addTagged env ext f) lf' := by
  obtain ⟨deep, lf1, fs2, hd, h1, hk, h2⟩ := loopFields_at n hm h
  rcases loopList_head hf hn h2 with ⟨hs, h3⟩ | ⟨h3, h4⟩
  · exfalso
    rcases hk _ hs with hx | hx
    · rw [hv] at hx; cases hx
    · obtain ⟨l, hp⟩ := loopList_perm hd h3
      have hp2 : (lf'.all).Perm ((lf1.all ++ [f]) ++ l) := hp.trans (List.Perm.append_right l (all_oris lf1 f))
      have hnd2 := (hp2.map Fld.name).nodup_iff.1 hnd
      rw [List.map_append, List.map_append] at hnd2
      have hnd3 := (List.nodup_append.1 hnd2).1
      have := (List.nodup_append.1 hnd3).2.2 f.name (by
        obtain ⟨g, hg, hgn⟩ := List.mem_map.1 hx
        rw [← hgn]
        refine List.mem_map.2 ⟨g, ?_, rfl⟩
        simp [LF.all, hg]) f.name (by simp)
      exact this rfl
  · exact ⟨lf1, h3, loopList_grows hd.grows _ _ _ h4⟩

/-- A field with a specification is decoded from blocks. -/
theorem loopFields_spec {env ext nulls n fs lf lf'} {f : Fld} {v} (hm : f ∈ fs) (hf : Decodes f) (hn : f.tag ∉ nulls)
    (hv : GoMap.get? lf.obj f.name = some v) (h : loopFields env ext nulls n fs lf = .ok lf') :
    f ∈ lf'.oris ∧ GoMap.get? lf'.obj f.name = some v := by
  refine ⟨?_, (loopFields_grows n _ _ _ h).obj _ _ hv⟩
  obtain ⟨deep, lf1, fs2, hd, h1, _, h2⟩ := loopFields_at n hm h
  rcases loopList_head hf hn h2 with ⟨_, h3⟩ | ⟨h3, _⟩
  · exact (loopList_grows hd.grows _ _ _ h3).oris _ (List.mem_append_right _ (List.mem_singleton.2 rfl))
  · rw [h1.obj _ _ hv] at h3; cases h3

theorem loopFields_label {env ext nulls n fs lf lf'} {f : Fld} (hm : f ∈ fs) (hu : f.upper = true)
    (hl : lower f.what = b "label") (hn : f.tag ∉ nulls)
    (h : loopFields env ext nulls n fs lf = .ok lf') : f ∈ lf'.labels := by
  obtain ⟨deep, lf1, fs2, hd, h1, _, h2⟩ := loopFields_at n hm h
  rw [loopList, if_neg (by simp [hu]), if_neg hn, if_pos hl] at h2
  exact (loopList_grows hd.grows _ _ _ h2).labels _ (List.mem_append_right _ (List.mem_singleton.2 rfl))

/-! ## Blocks -/

theorem store_holds {env ty c fs v} (h : store env ty c fs = .ok v) : Holds env ty c fs v := by
  unfold store at h
  split at h
  · cases h; exact .any
  · split at h
    · cases h; exact .iface (by assumption)
    · cases h
  · split at h
    · rename_i ht; cases h; subst ht; exact .ptr
    · cases h
  · split at h
    · rename_i ht; cases h; subst ht; exact .struct
    · cases h
  · cases h

theorem decodeBlock_ok {rec path st node tag blk cls ml c fs st'}
    (h : decodeBlock rec path st node tag blk cls ml = .ok ((c, fs), st')) :
    ∃ body content sub, blk.body = some body ∧ GoMap.get? st.ref cls.name = some (.ptr c content) ∧
      Tree.getNode st.heap node tag blk.labels = some (some sub) ∧ (∀ m, ml = some m → blk.labels.length ≤ m) ∧
      rec path st sub c content cls.fields blk.labels body = (fs, .ok st') := by
  unfold decodeBlock at h
  split at h
  · cases h
  rename_i sub hsub
  split at h
  · cases h
  · cases h
  · cases h
  rename_i c' content href
  split at h
  · cases h
  rename_i hml
  split at h
  · cases h
  · cases h
  rename_i body sub' hbody
  split at h
  · cases h
  · rename_i fs' st'' hrec
    cases h
    refine ⟨body, content, sub', hbody, href, hsub, ?_, hrec⟩
    intro m hm
    rw [hm] at hml
    simpa using hml

variable {env : Env} {ext : Ext} {root n node : Nat} {tag : Bytes}

/-- One block, as `BlockAs` without the state at the beginning. -/
def BlockFrom (env : Env) (ext : Ext) (root n node : Nat) (tag : Bytes) (cls : Cls) (labels : List Bytes) (body : Body)
    (st st' : St) (c : Nat) (out : Fields) : Prop :=
  ∃ content path sub, GoMap.get? st.ref cls.name = some (.ptr c content) ∧
    Tree.getNode st.heap node tag labels = some (some sub) ∧
    decode env ext root n path st sub c content cls.fields labels body = (out, .ok st')

/-- The block, decoded as the class, is the value. -/
def ElemFrom (env : Env) (ext : Ext) (root n node : Nat) (tag : Bytes) (ety : Ty) (cls : Cls) (blk : Blk) (st st' : St) (v : Val) :
    Prop :=
  ∃ body c out, blk.body = some body ∧ BlockFrom env ext root n node tag cls blk.labels body st st' c out ∧
    Holds env ety c out v

theorem decodeBlock_elem {path st blk cls ml c fs st' ety v}
    (h : decodeBlock (decode env ext root n) path st node tag blk cls ml = .ok ((c, fs), st'))
    (hv : store env ety c fs = .ok v) : ElemFrom env ext root n node tag ety cls blk st st' v := by
  obtain ⟨body, content, sub, h1, h2, h3, _, h4⟩ := decodeBlock_ok h
  exact ⟨body, c, fs, h1, ⟨content, path, sub, h2, h3, h4⟩, store_holds hv⟩

/-- The states between the blocks. -/
def states (st : St) (s : Nat → St) : Nat → St
  | 0 => st
  | k + 1 => s k

theorem listLoop_ok {path ety first} : ∀ {cs blks st vs st'},
    listLoop env (decode env ext root n) path node tag ety first cs blks st = .ok (vs, st') →
    vs.length = blks.length ∧ ∃ s : Nat → St, s 0 = st ∧ s blks.length = st' ∧
      ∀ k blk v, blks[k]? = some blk → vs[k]? = some v →
        ElemFrom env ext root n node tag ety (cs.getD k first) blk (s k) (s (k + 1)) v
  | cs, [], st, vs, st', h => by
    cases h
    exact ⟨rfl, fun _ => st, rfl, rfl, fun k blk v hb => by simp at hb⟩
  | cs, blk :: blks, st, vs, st', h => by
    simp only [listLoop] at h
    split at h
    · cases h
    rename_i c fs st1 hb
    split at h
    · cases h
    rename_i v hv
    split at h
    · cases h
    rename_i vs' st2 hl
    cases h
    obtain ⟨h1, s, h2, h3, h4⟩ := listLoop_ok hl
    refine ⟨by simp [h1], states st s, rfl, by simp [states, h3], ?_⟩
    intro k blk' v' hb' hv'
    cases k with
    | zero =>
      simp only [List.getElem?_cons_zero, Option.some.injEq] at hb' hv'
      subst hb' hv'
      simp only [states, h2]
      have : cs.getD 0 first = cs.headD first := by cases cs <;> rfl
      rw [this]
      exact decodeBlock_elem hb hv
    | succ k =>
      simp only [List.getElem?_cons_succ] at hb' hv'
      have := h4 k blk' v' hb' hv'
      have hc : cs.tail.getD k first = cs.getD (k + 1) first := by cases cs <;> simp
      rw [hc] at this
      exact this

theorem get?_append {κ α : Type} [DecidableEq κ] (l l' : List (κ × α)) (k : κ) :
    GoMap.get? (l ++ l') k = (GoMap.get? l k).or (GoMap.get? l' k) := by
  induction l with
  | nil => simp [GoMap.get?]
  | cons e l ih =>
    obtain ⟨k', v⟩ := e
    simp only [List.cons_append, GoMap.get?]
    split
    · rfl
    · exact ih

/-- Storing entries one after the other: the last one for a key stays. -/
theorem get?_foldl_insertK {κ α : Type} [DecidableEq κ] {lt : κ → κ → Bool} (es : List (κ × α)) (acc : List (κ × α)) (k : κ) :
    GoMap.get? (es.foldl (fun m e => insertK lt e.1 e.2 m) acc) k = (lastEntry es k).or (GoMap.get? acc k) := by
  induction es generalizing acc with
  | nil => simp [lastEntry, GoMap.get?]
  | cons e es ih =>
    rw [List.foldl_cons, ih, Det.get?_insertK]
    simp only [lastEntry, List.reverse_cons, get?_append, GoMap.get?]
    cases GoMap.get? es.reverse k <;> simp
    split <;> simp

/-- What the loops over the blocks of a map do. -/
def MapFrom {κ : Type} [DecidableEq κ] (env : Env) (ext : Ext) (root n node : Nat) (tag : Bytes) (ety : Ty)
    (clsOf : Blk → Option Cls) (keyOf : Blk → Nat → Fields → κ → Prop) (okBlk : Blk → Prop)
    (blks : List Blk) (st st' : St) (es : List (κ × Val)) : Prop :=
  es.length = blks.length ∧ ∃ s : Nat → St, s 0 = st ∧ s blks.length = st' ∧
    ∀ k blk e, blks[k]? = some blk → es[k]? = some e → okBlk blk ∧
      ∃ cls body c out, clsOf blk = some cls ∧ blk.body = some body ∧
        BlockFrom env ext root n node tag cls blk.labels body (s k) (s (k + 1)) c out ∧
        Holds env ety c out e.2 ∧ keyOf blk c out e.1

theorem MapFrom.nil {κ : Type} [DecidableEq κ] {ety clsOf keyOf okBlk st} :
    MapFrom (κ := κ) env ext root n node tag ety clsOf keyOf okBlk [] st st [] :=
  ⟨rfl, fun _ => st, rfl, rfl, fun k blk v hb => by simp at hb⟩

theorem MapFrom.cons {κ : Type} [DecidableEq κ] {ety clsOf keyOf okBlk blk blks st st1 st' es key v cls path ml c fs}
    (hok : okBlk blk) (hc : clsOf blk = some cls)
    (hb : decodeBlock (decode env ext root n) path st node tag blk cls ml = .ok ((c, fs), st1))
    (hv : store env ety c fs = .ok v) (hk : keyOf blk c fs key)
    (h : MapFrom (κ := κ) env ext root n node tag ety clsOf keyOf okBlk blks st1 st' es) :
    MapFrom env ext root n node tag ety clsOf keyOf okBlk (blk :: blks) st st' ((key, v) :: es) := by
  obtain ⟨h1, s, h2, h3, h4⟩ := h
  refine ⟨by simp [h1], states st s, rfl, by simp [states, h3], ?_⟩
  intro k blk' e hb' he'
  cases k with
  | zero =>
    simp only [List.getElem?_cons_zero, Option.some.injEq] at hb' he'
    subst hb' he'
    obtain ⟨body, content, sub, b1, b2, b3, _, b4⟩ := decodeBlock_ok hb
    refine ⟨hok, cls, body, c, fs, hc, b1, ?_, store_holds hv, hk⟩
    simp only [states, h2]
    exact ⟨content, path, sub, b2, b3, b4⟩
  | succ k => exact h4 k blk' e hb' he'

theorem orPanic_ok {α : Type} {o : Option α} {a} (h : orPanic o = .ok a) : o = some a := by
  cases o with
  | none => cases h
  | some x => cases h; rfl

/-- The class for a label, or the default. -/
def classFor (m : List (Bytes × Cls)) (first : Option Cls) (blk : Blk) : Option Cls :=
  (GoMap.get? m (blk.labels.getD 0 [])).or first

theorem mapLoop_ok {path kt ety m first} : ∀ {blks st acc r st'},
    mapLoop env (decode env ext root n) path node tag kt ety m first blks st acc = .ok (r, st') →
    ∃ es, r = es.foldl (fun m e => insertK ltB e.1 e.2 m) acc ∧
      MapFrom env ext root n node tag ety (classFor m first) (fun blk _ _ key => blk.labels.getD 0 [] = key)
        (fun blk => blk.labels.length = 1) blks st st' es
  | [], st, acc, r, st', h => by cases h; exact ⟨[], rfl, .nil⟩
  | blk :: blks, st, acc, r, st', h => by
    simp only [mapLoop] at h
    split at h
    · cases h
    rename_i key rest hl
    split at h
    · cases h
    rename_i cls hcls
    split at h
    · cases h
    rename_i c fs st1 hb
    split at h
    · split at h
      · cases h
      rename_i v hv
      obtain ⟨es, h1, h2⟩ := mapLoop_ok h
      refine ⟨(key, v) :: es, h1, .cons ?_ ?_ hb hv ?_ h2⟩
      · obtain ⟨_, _, _, _, _, _, hm, _⟩ := decodeBlock_ok hb
        have := hm 1 rfl
        rw [hl] at this ⊢
        simp only [List.length_cons] at this ⊢
        omega
      · have := orPanic_ok hcls
        simpa [classFor, hl] using this
      · simp [hl]
    · cases h

theorem listMapLoop_ok {path kt ety first} : ∀ {blks st acc r st'},
    listMapLoop env (decode env ext root n) path node tag kt ety first blks st acc = .ok (r, st') →
    ∃ es, r = es.foldl (fun m e => insertK ltB e.1 e.2 m) acc ∧
      MapFrom env ext root n node tag ety (fun _ => some first) (fun blk _ _ key => blk.labels.getD 0 [] = key)
        (fun blk => blk.labels ≠ []) blks st st' es
  | [], st, acc, r, st', h => by cases h; exact ⟨[], rfl, .nil⟩
  | blk :: blks, st, acc, r, st', h => by
    simp only [listMapLoop] at h
    split at h
    · cases h
    rename_i c fs st1 hb
    split at h
    · cases h
    rename_i key rest hl
    split at h
    · split at h
      · cases h
      rename_i v hv
      obtain ⟨es, h1, h2⟩ := listMapLoop_ok h
      refine ⟨(key, v) :: es, h1, .cons ?_ rfl hb hv ?_ h2⟩
      · rw [hl]; simp
      · simp [hl]
    · cases h

/-- The class for a pair of labels, or the default. -/
def classFor2 (m : List (Bytes × List (Bytes × Cls))) (first : Option (List (Bytes × Cls))) (firstFirst : Option Cls)
    (blk : Blk) : Option Cls :=
  (GoMap.get? ((GoMap.get? m (blk.labels.getD 0 [])).getD (first.getD [])) (blk.labels.getD 1 [])).or firstFirst

theorem map2Loop_ok {path kt ety m first firstFirst} : ∀ {blks st acc r st'},
    map2Loop env (decode env ext root n) path node tag kt ety m first firstFirst blks st acc = .ok (r, st') →
    ∃ es, r = es.foldl (fun m e => insertK Det.ltB2 e.1 e.2 m) acc ∧
      MapFrom env ext root n node tag ety (classFor2 m first firstFirst)
        (fun blk c fs key => key = map2Key blk.labels (getLabels env c fs))
        (fun blk => blk.labels.length ≤ 2) blks st st' es
  | [], st, acc, r, st', h => by cases h; exact ⟨[], rfl, .nil⟩
  | blk :: blks, st, acc, r, st', h => by
    simp only [map2Loop] at h
    split at h
    · cases h
    rename_i cls hcls
    split at h
    · cases h
    rename_i c fs st1 hb
    split at h
    · split at h
      · cases h
      rename_i v hv
      obtain ⟨es, h1, h2⟩ := map2Loop_ok h
      refine ⟨(_, v) :: es, h1, .cons ?_ ?_ hb hv rfl h2⟩
      · obtain ⟨_, _, _, _, _, _, hm, _⟩ := decodeBlock_ok hb
        exact hm 2 rfl
      · exact orPanic_ok hcls
    · cases h

/-! ## The whole -/

/-- The parts of a decoding that succeeds. -/
theorem decode_ok {path st cls fs obj labels body fs' st'}
    (h : decode env ext root (n + 1) path st node cls fs obj labels body = (fs', .ok st')) :
    ∃ p, prepare env ext n root st node cls obj path body = .ok p ∧
      runSteps (steps env ext (decode env ext root n) p node labels path body) fs ⟨p.heap, p.lf.ref⟩ = (fs', .ok st') := by
  simp only [decode, decodeStruct] at h
  split at h
  · cases h
  · rename_i p hp; exact ⟨p, hp, h⟩

theorem prepare_ok {st cls obj path body p} (h : prepare env ext n root st node cls obj path body = .ok p) :
    ∃ h1 h2, prelude env ext n root st node cls obj path body = .ok (p.vals, p.lf, h1) ∧
      oriAttrs (nullKeys p.vals) p.lf p.vals node (ext.ord (path ++ [b "refresh"]) (GoMap.keys body.attrs)) h1 = .ok h2 ∧
      p.heap = h2 ∧ gohclDecode ext p.lf body (routed (nullKeys p.vals) p.lf p.vals .plain) = .ok p.raw := by
  simp only [prepare] at h
  split at h
  · cases h
  rename_i vals lf h1 hpre
  split at h
  · cases h
  rename_i h2 hori
  split at h
  · cases h
  rename_i raw hraw
  cases h
  exact ⟨h1, h2, hpre, hori, rfl, hraw⟩

theorem prelude_ok {st cls obj path body vals lf h}
    (hp : prelude env ext n root st node cls obj path body = .ok (vals, lf, h)) :
    ∃ h1, evalAttrs ext root node body.attrs (ext.ord (path ++ [b "attributes"]) (GoMap.keys body.attrs)) st.heap = .ok (vals, h1) ∧
      addBlockNodes node body.blocks h1 = .ok h ∧
      loopFields env ext (nullKeys vals) n (env.struct cls).fields ⟨[], [], [], [], obj, st.ref⟩ = .ok lf := by
  simp only [prelude] at hp
  split at hp
  · cases hp
  rename_i vals' h1 he
  split at hp
  · cases hp
  rename_i h2 hb
  split at hp
  · cases hp
  rename_i lf' hl
  cases hp
  exact ⟨h1, he, hb, hl⟩

theorem evalAttrs_keys {attrs} : ∀ {ks h vals h'}, evalAttrs ext root node attrs ks h = .ok (vals, h') → vals.map Prod.fst = ks
  | [], h, vals, h', he => by cases he; rfl
  | k :: ks, h, vals, h', he => by
    simp only [evalAttrs] at he
    split at he
    · split at he
      · cases he
      split at he
      · cases he
      split at he
      · cases he
      rename_i hr
      cases he
      simp [evalAttrs_keys hr]
    · cases he

/-- The names of the fields found are distinct. -/
theorem found_nodup {nulls cls obj ref lf} (hd : DistinctNames env n cls)
    (h : loopFields env ext nulls n (env.struct cls).fields ⟨[], [], [], [], obj, ref⟩ = .ok lf) : (lf.all.map Fld.name).Nodup := by
  obtain ⟨l, h1, h2⟩ := loopFields_found n _ _ _ h
  have h1 : lf.all.Perm l := by simpa [LF.all] using h1
  rw [(h1.map Fld.name).nodup_iff]
  exact (h2.map Fld.name).nodup hd

/-- What a field given by blocks holds at the end. -/
theorem oris_final {p : Pre} {labels path body fs st fs' st'} {f : Fld}
    (hnd : (p.lf.all.map Fld.name).Nodup) (hf : f ∈ p.lf.oris)
    (h : runSteps (steps env ext (decode env ext root n) p node labels path body) fs st = (fs', .ok st')) :
    ∃ fs1 st1 fs2 st2,
      oriStep env ext (decode env ext root n) (nullKeys p.vals) p.lf body p.vals path node f fs1 st1 = .ok (fs2, st2) ∧
      GoMap.get? fs' f.name = GoMap.get? fs2 f.name ∧ GoMap.get? fs1 f.name = GoMap.get? fs f.name ∧
      ∃ l, (∀ s ∈ l, s ∈ steps env ext (decode env ext root n) p node labels path body) ∧ runSteps l fs st = (fs1, .ok st1) := by
  obtain ⟨l1, l2, hl⟩ := List.append_of_mem hf
  have hnd' := hnd
  simp only [LF.all, hl, List.map_append, List.map_cons] at hnd
  simp only [steps, hl, List.map_append, List.map_cons] at h
  rw [runSteps_append] at h
  obtain ⟨fa, sa, ha, h⟩ := h
  rw [runSteps_append] at h
  obtain ⟨fb, sb, hb, h⟩ := h
  rw [runSteps_cons] at h
  obtain ⟨fc, sc, hc, h⟩ := h
  have hnd1 := (List.nodup_append.1 hnd).1
  have dis : ∀ g ∈ p.lf.labels ++ p.lf.news ++ l1 ++ l2 ++ p.lf.decs, f.name ≠ g.name := by
    have hp : (p.lf.labels ++ p.lf.news ++ (l1 ++ f :: l2) ++ p.lf.decs).Perm
        (f :: (p.lf.labels ++ p.lf.news ++ l1 ++ l2 ++ p.lf.decs)) := by
      have := List.perm_middle (a := f) (l₁ := p.lf.labels ++ p.lf.news ++ l1) (l₂ := l2 ++ p.lf.decs)
      simpa [List.append_assoc] using this
    have hn := (hp.map Fld.name).nodup_iff.1 (by simpa [List.map_append] using hnd)
    rw [List.map_cons, List.nodup_cons] at hn
    intro g hg he
    exact hn.1 (List.mem_map.2 ⟨g, hg, he.symm⟩)
  refine ⟨fb, sb, fc, sc, hc, ?_, ?_, _, ?_, runSteps_append.2 ⟨fa, sa, ha, hb⟩⟩
  · refine runSteps_keeps ?_ h
    intro s hs
    obtain ⟨g, hg, rfl⟩ := List.mem_map.1 hs
    exact oriStep_keeps (dis g (by simp [hg]))
  rotate_left
  · intro s hs
    simp only [steps, hl, List.map_append, List.map_cons]
    rw [List.mem_append] at hs ⊢
    rcases hs with hs | hs
    · exact Or.inl hs
    · exact Or.inr (List.mem_append_left _ hs)
  · rw [runSteps_keeps ?_ hb, runSteps_keeps ?_ ha]
    · intro s hs
      simp only [List.mem_append] at hs
      rcases hs with ((hs | hs) | hs) | hs
      · obtain ⟨g, hg, rfl⟩ := List.mem_map.1 hs
        exact labelAttrStep_keeps (dis g (by simp [hg]))
      · simp only [labelSteps] at hs
        split at hs
        · obtain ⟨g, hg, rfl⟩ := List.mem_map.1 hs
          exact labelStep_keeps (dis g.1 (by simp [(List.of_mem_zip hg).1]))
        · cases hs
      · obtain ⟨g, hg, rfl⟩ := List.mem_map.1 hs
        exact newStep_keeps (dis g.1 (by simp [(List.of_mem_zip hg).1]))
      · obtain ⟨g, hg, rfl⟩ := List.mem_map.1 hs
        exact decStep_keeps (dis g (by simp [hg]))
    · intro s hs
      obtain ⟨g, hg, rfl⟩ := List.mem_map.1 hs
      exact oriStep_keeps (dis g (by simp [hg]))

/-! ## Labels -/

theorem labels_addOri (lf : LF) (f name tmpl v) : (lf.addOri f name tmpl v).labels = lf.labels := rfl

theorem labels_addElem (lf : LF) (f k v) : (lf.addElem f k v).labels = lf.labels := by cases k <;> rfl

theorem labels_addTagged (env ext) (lf : LF) (f) : (lf.addTagged env ext f).labels = lf.labels := by
  simp only [LF.addTagged]
  split
  · rfl
  · exact labels_addElem ..
  · exact labels_addElem ..
  · exact labels_addElem ..
  · rfl

/-- The labels found are the label fields in order, without those that are null. -/
def FindsLabels (nulls : List Bytes) (r : Except Fail LF) (lf : LF) (fl : List Fld) : Prop :=
  ∀ lf', r = .ok lf' →
    lf'.labels = lf.labels ++ (fl.filter fun f => lower f.what = b "label").filter fun f => f.tag ∉ nulls

theorem loopList_labels {env ext nulls deep} {deepFlat : List Fld → List Fld} (h0 : [] ∉ nulls)
    (hd : ∀ fs lf, FindsLabels nulls (deep fs lf) lf (deepFlat fs)) :
    ∀ fs lf, FindsLabels nulls (loopList env ext nulls deep fs lf) lf (flatList env deepFlat fs)
  | [], lf => by intro lf' h; cases h; simp [flatList]
  | f :: fs, lf => by
    intro lf' h
    simp only [loopList] at h
    simp only [flatList, List.filter_append]
    have plain : f.upper = true → (f.tag ≠ [] ∨ lower f.what = b "label" ∨ f.ty.structOf = none) → flatOne env deepFlat f = [f] := by
      intro hu hc
      rw [flatOne, if_neg (by simp [hu])]
      split
      · rename_i h1
        rcases hc with hc | hc | hc
        · exact absurd h1.1 hc
        · exact absurd hc h1.2
        · rw [hc]
      · rfl
    split at h
    · rename_i hu
      rw [flatOne, if_pos (by simpa using hu), loopList_labels h0 hd fs lf lf' h]; simp
    rename_i hu
    have hu : f.upper = true := by simpa using hu
    split at h
    · rename_i hn
      have ht : f.tag ≠ [] := fun h => h0 (h ▸ hn)
      rw [plain hu (Or.inl ht), loopList_labels h0 hd fs lf lf' h]
      by_cases hl : lower f.what = b "label" <;> simp [hl, hn]
    rename_i hn
    split at h
    · rename_i hl
      rw [plain hu (Or.inr (Or.inl hl)), loopList_labels h0 hd fs _ lf' h]
      simp [hl, hn]
    rename_i hl
    have done : ∀ {lf1 : LF}, lf1.labels = lf.labels → (f.tag ≠ [] ∨ f.ty.structOf = none) →
        loopList env ext nulls deep fs lf1 = .ok lf' →
        lf'.labels = lf.labels ++ (((flatOne env deepFlat f).filter fun f => decide (lower f.what = b "label")).filter (fun f => decide (f.tag ∉ nulls)) ++
          ((flatList env deepFlat fs).filter fun f => decide (lower f.what = b "label")).filter fun f => decide (f.tag ∉ nulls)) := by
      intro lf1 h1 hc h
      rw [plain hu (hc.elim Or.inl fun h => Or.inr (Or.inr h)), loopList_labels h0 hd fs lf1 lf' h, h1]
      simp [hl]
    split at h
    · rename_i hdash
      refine done rfl (Or.inl ?_) h
      intro ht
      rw [ht] at hdash
      rcases hdash with hx | hx
      · cases hx
      · simp [List.isSuffixOf] at hx; cases hx
    split at h
    · split at h
      · cases h
      · rename_i hx
        refine done (lf1 := { lf with oris := lf.oris ++ [f] }) rfl ?_ h
        by_cases ht : f.tag = []
        · right
          cases hs : f.ty.structOf with
          | none => rfl
          | some c => exact absurd ⟨ht, by simp [hs]⟩ hx
        · left; exact ht
    split at h
    · rename_i ht
      split at h
      · rename_i c hc
        split at h
        · cases h
        · rename_i lf1 hdeep
          rw [loopList_labels h0 hd fs lf1 lf' h, hd _ _ _ hdeep, flatOne, if_neg (by simp [hu]), if_pos ⟨ht, hl⟩, hc]
          simp
      · rename_i hc
        exact done rfl (Or.inr hc) h
    · rename_i ht
      exact done (labels_addTagged ..) (Or.inl ht) h

theorem loopFields_labels {env ext nulls} (h0 : [] ∉ nulls) :
    ∀ n fs lf, FindsLabels nulls (loopFields env ext nulls n fs lf) lf (flat env n fs)
  | 0 => loopList_labels h0 (fun _ _ _ h => by cases h)
  | n + 1 => loopList_labels h0 (loopFields_labels h0 n)

/-- The labels of a block are stored into the label fields that are empty. -/
theorem labelSteps_final : ∀ {ps : List (Fld × Bytes)} {fs st fs' st'}, (ps.map fun p => p.1.name).Nodup →
    runSteps (ps.map labelStep) fs st = (fs', .ok st') → ∀ p ∈ ps,
      (GoMap.get? fs p.1.name = some (.str []) → GoMap.get? fs' p.1.name = some (.str p.2)) ∧
      (GoMap.get? fs p.1.name ≠ some (.str []) → GoMap.get? fs' p.1.name = GoMap.get? fs p.1.name)
  | [], _, _, _, _, _, _, _, hp => by cases hp
  | q :: ps, fs, st, fs', st', hn, h, p, hp => by
    rw [List.map_cons, List.nodup_cons] at hn
    rw [List.map_cons, runSteps_cons] at h
    obtain ⟨fs1, st1, h1, h2⟩ := h
    rcases List.mem_cons.1 hp with rfl | hp
    · have hk : GoMap.get? fs' p.1.name = GoMap.get? fs1 p.1.name := by
        refine runSteps_keeps ?_ h2
        intro s hs
        obtain ⟨g, hg, rfl⟩ := List.mem_map.1 hs
        refine labelStep_keeps fun he => hn.1 ?_
        exact List.mem_map.2 ⟨g, hg, he.symm⟩
      rw [hk]
      simp only [labelStep, getF] at h1
      cases hv : GoMap.get? fs p.1.name with
      | none => rw [hv] at h1; cases h1
      | some v =>
        rw [hv] at h1
        refine ⟨?_, ?_⟩
        · intro he
          cases he
          simp only at h1
          split at h1
          · cases hs : setF p.1.name (.str p.2) fs with
            | error e => rw [hs] at h1; cases h1
            | ok r => rw [hs] at h1; cases h1; rw [get?_setF hs, if_pos rfl]
          · cases h1
        · intro hne
          split at h1
          · cases h1
          · rename_i hx; cases hx; exact absurd rfl hne
          · cases h1; exact hv
    · have := labelSteps_final hn.2 h2 p hp
      rw [labelStep_keeps (fun he => hn.1 (List.mem_map.2 ⟨p, hp, he⟩)) _ _ _ _ h1] at this
      exact this

end Verif.HclS
