import Verif.Lemmas.HclStructTotal
/-!
# Fields given by attributes
-/
set_option linter.unusedSimpArgs false

namespace Verif.HclS
open Tree (Heap)
open Hcl (Cty Expr)
open Det (Cls CVal KeyTy insertK ltB)

variable {env : Env} {ext : Ext} {root n node : Nat}

/-- Fields whose attribute is null are left out. -/
theorem loopList_notNull {nulls deep} {P : Fld → Prop} (hP : ∀ f, f.tag ∉ nulls → P f)
    (hd : ∀ fs lf lf', deep fs lf = .ok lf' → (∀ g ∈ lf.all, P g) → ∀ g ∈ lf'.all, P g) :
    ∀ fs lf lf', loopList env ext nulls deep fs lf = .ok lf' → (∀ g ∈ lf.all, P g) → ∀ g ∈ lf'.all, P g
  | [], lf, lf', h, hg => by cases h; exact hg
  | f :: fs, lf, lf', h, hg => by
    simp only [loopList] at h
    split at h
    · exact loopList_notNull hP hd fs _ _ h hg
    split at h
    · exact loopList_notNull hP hd fs _ _ h hg
    rename_i hn
    have hf := hP f hn
    split at h
    · refine loopList_notNull hP hd fs _ _ h ?_
      intro g hx
      simp only [LF.all, List.mem_append, List.mem_singleton] at hx hg
      rcases hx with ((( hx | rfl) | hx) | hx) | hx
      · exact hg g (by simp [hx])
      · exact hf
      · exact hg g (by simp [hx])
      · exact hg g (by simp [hx])
      · exact hg g (by simp [hx])
    split at h
    · exact loopList_notNull hP hd fs _ _ h hg
    split at h
    · split at h
      · cases h
      · refine loopList_notNull hP hd fs _ _ h ?_
        intro g hx
        simp only [LF.all, List.mem_append, List.mem_singleton] at hx hg
        rcases hx with ((hx | hx) | (hx | rfl)) | hx
        · exact hg g (by simp [hx])
        · exact hg g (by simp [hx])
        · exact hg g (by simp [hx])
        · exact hf
        · exact hg g (by simp [hx])
    split at h
    · split at h
      · split at h
        · cases h
        · rename_i lf1 h1
          exact loopList_notNull hP hd fs _ _ h (hd _ _ _ h1 hg)
      · exact loopList_notNull hP hd fs _ _ h hg
    · refine loopList_notNull hP hd fs _ _ h ?_
      intro g hx
      have hp := all_addTagged env ext lf f
      rcases List.mem_append.1 (hp.mem_iff.1 hx) with hx | hx
      · exact hg g hx
      · rw [List.mem_singleton] at hx; subst hx; exact hf

theorem loopFields_notNull {nulls} : ∀ n fs lf lf', loopFields env ext nulls n fs lf = .ok lf' →
    (∀ g ∈ lf.all, g.tag ∉ nulls) → ∀ g ∈ lf'.all, g.tag ∉ nulls
  | 0 => loopList_notNull (fun _ h => h) (fun _ _ _ h => by cases h)
  | n + 1 => loopList_notNull (fun _ h => h) (loopFields_notNull n)

/-- Every step keeps the fields that were not found. -/
theorem steps_keeps {p : Pre} {labels path body} {name : Bytes} (hn : ∀ g ∈ p.lf.all, name ≠ g.name) :
    ∀ s ∈ steps env ext (decode env ext root n) p node labels path body, Keeps name s := by
  intro s hs
  simp only [steps, List.mem_append] at hs
  rcases hs with (((hs | hs) | hs) | hs) | hs
  · obtain ⟨g, hg, rfl⟩ := List.mem_map.1 hs
    exact labelAttrStep_keeps (hn g (by simp [LF.all, hg]))
  · simp only [labelSteps] at hs
    split at hs
    · obtain ⟨g, hg, rfl⟩ := List.mem_map.1 hs
      exact labelStep_keeps (hn g.1 (by simp [LF.all, (List.of_mem_zip hg).1]))
    · cases hs
  · obtain ⟨g, hg, rfl⟩ := List.mem_map.1 hs
    exact newStep_keeps (hn g.1 (by simp [LF.all, (List.of_mem_zip hg).1]))
  · obtain ⟨g, hg, rfl⟩ := List.mem_map.1 hs
    exact decStep_keeps (hn g (by simp [LF.all, hg]))
  · obtain ⟨g, hg, rfl⟩ := List.mem_map.1 hs
    exact oriStep_keeps (hn g (by simp [LF.all, hg]))

theorem decodeLeaves_length {val} : ∀ {fs vs}, decodeLeaves ext val fs = .ok vs → vs.length = fs.length
  | [], vs, h => by cases h; rfl
  | f :: fs, vs, h => by
    have fin : ∀ {v : Val}, ((decodeLeaves ext val fs).map fun vs => v :: vs) = .ok vs → vs.length = (f :: fs).length := by
      intro v h
      obtain ⟨a, h1, h2⟩ := map_ok' h
      rw [h2]
      simp [decodeLeaves_length h1]
    simp only [decodeLeaves] at h
    split at h
    · exact fin h
    split at h
    · exact fin h
    split at h
    · cases h
    · exact fin h

/-- The value decoded for a field whose tag does not come again. -/
theorem decodeLeaves_value {val} {f : Fld} : ∀ {fs vs}, decodeLeaves ext val fs = .ok vs → f ∈ fs → (fs.map Fld.name).Nodup →
    (∀ g ∈ fs, g.tag = f.tag → g.name = f.name) →
    ∃ v, (f, v) ∈ fs.zip vs ∧ ∀ cv, val f.tag = some cv → ext.leaf f cv = .ok v
  | [], vs, _, hf, _, _ => by cases hf
  | g :: fs, vs, h, hf, hnd, hone => by
    rw [List.map_cons, List.nodup_cons] at hnd
    have rest : ∀ {w : Val}, ((decodeLeaves ext val fs).map fun vs => w :: vs) = .ok vs →
        (f = g → ∀ cv, val f.tag = some cv → ext.leaf f cv = .ok w) →
        ∃ v, (f, v) ∈ (g :: fs).zip vs ∧ ∀ cv, val f.tag = some cv → ext.leaf f cv = .ok v := by
      intro w h hw
      obtain ⟨a, h1, h2⟩ := map_ok' h
      subst h2
      rcases List.mem_cons.1 hf with rfl | hf
      · exact ⟨w, by simp, hw rfl⟩
      · obtain ⟨v, h3, h4⟩ := decodeLeaves_value h1 hf hnd.2 (fun g hg => hone g (by simp [hg]))
        exact ⟨v, by simp [h3], h4⟩
    simp only [decodeLeaves] at h
    split at h
    · rename_i hv
      refine rest h ?_
      rintro rfl cv hcv
      rw [hv] at hcv; cases hcv
    rename_i cv hv
    split at h
    · rename_i hdup
      refine rest h ?_
      rintro rfl
      exfalso
      obtain ⟨g', hg', ht⟩ := List.any_eq_true.1 hdup
      have := hone g' (by simp [hg']) (by simpa using ht)
      exact hnd.1 (List.mem_map.2 ⟨g', hg', this⟩)
    split at h
    · cases h
    · rename_i v hl
      refine rest h ?_
      rintro rfl cv' hcv'
      rw [hv] at hcv'; cases hcv'; exact hl

/-- What a field given by an attribute holds at the end. -/
theorem news_final {p : Pre} {labels path body fs st fs' st'} {f : Fld} {v : Val}
    (hnd : (p.lf.all.map Fld.name).Nodup) (hlen : p.raw.length = p.lf.news.length) (hf : (f, v) ∈ p.lf.news.zip p.raw)
    (h : runSteps (steps env ext (decode env ext root n) p node labels path body) fs st = (fs', .ok st')) :
    GoMap.get? fs' f.name =
      if (routed (nullKeys p.vals) p.lf p.vals .plain f.tag).isSome then some v else GoMap.get? fs f.name := by
  obtain ⟨l1, l2, hl⟩ := List.append_of_mem hf
  have hnews : p.lf.news = l1.map Prod.fst ++ f :: l2.map Prod.fst := by
    have : (p.lf.news.zip p.raw).map Prod.fst = p.lf.news := List.map_fst_zip (by omega)
    rw [← this, hl]; simp
  have dis : ∀ g ∈ p.lf.labels ++ l1.map Prod.fst ++ l2.map Prod.fst ++ p.lf.oris ++ p.lf.decs, f.name ≠ g.name := by
    have hp : (p.lf.all).Perm (f :: (p.lf.labels ++ l1.map Prod.fst ++ l2.map Prod.fst ++ p.lf.oris ++ p.lf.decs)) := by
      have := List.perm_middle (a := f) (l₁ := p.lf.labels ++ l1.map Prod.fst) (l₂ := l2.map Prod.fst ++ p.lf.oris ++ p.lf.decs)
      simpa [LF.all, hnews, List.append_assoc] using this
    have hn := (hp.map Fld.name).nodup_iff.1 hnd
    rw [List.map_cons, List.nodup_cons] at hn
    intro g hg he
    exact hn.1 (List.mem_map.2 ⟨g, hg, he.symm⟩)
  simp only [steps, hl, List.map_append, List.map_cons] at h
  rw [runSteps_append] at h
  obtain ⟨fa, sa, h, ha⟩ := h
  rw [runSteps_append] at h
  obtain ⟨fb, sb, h, hb⟩ := h
  rw [runSteps_append] at h
  obtain ⟨fc, sc, hc, h⟩ := h
  rw [runSteps_append] at h
  obtain ⟨fd, sd, hd, h⟩ := h
  rw [runSteps_cons] at h
  obtain ⟨fe, se, he, h⟩ := h
  have k1 : GoMap.get? fc f.name = GoMap.get? fs f.name := by
    refine runSteps_keeps ?_ hc
    intro s hs
    rcases List.mem_append.1 hs with hs | hs
    · obtain ⟨g, hg, rfl⟩ := List.mem_map.1 hs
      exact labelAttrStep_keeps (dis g (by simp [hg]))
    · simp only [labelSteps] at hs
      split at hs
      · obtain ⟨g, hg, rfl⟩ := List.mem_map.1 hs
        exact labelStep_keeps (dis g.1 (by simp [(List.of_mem_zip hg).1]))
      · cases hs
  have k2 : GoMap.get? fd f.name = GoMap.get? fc f.name := by
    refine runSteps_keeps ?_ hd
    intro s hs
    obtain ⟨g, hg, rfl⟩ := List.mem_map.1 hs
    exact newStep_keeps (dis g.1 (by
      have := List.mem_map_of_mem (f := Prod.fst) hg
      simp only [List.mem_append, this, true_or, or_true]))
  have k3 : GoMap.get? fb f.name = GoMap.get? fe f.name := by
    refine runSteps_keeps ?_ h
    intro s hs
    obtain ⟨g, hg, rfl⟩ := List.mem_map.1 hs
    exact newStep_keeps (dis g.1 (by
      have := List.mem_map_of_mem (f := Prod.fst) hg
      simp only [List.mem_append, this, true_or, or_true]))
  have k4 : GoMap.get? fa f.name = GoMap.get? fb f.name := by
    refine runSteps_keeps ?_ hb
    intro s hs
    obtain ⟨g, hg, rfl⟩ := List.mem_map.1 hs
    exact decStep_keeps (dis g (by simp [hg]))
  have k5 : GoMap.get? fs' f.name = GoMap.get? fa f.name := by
    refine runSteps_keeps ?_ ha
    intro s hs
    obtain ⟨g, hg, rfl⟩ := List.mem_map.1 hs
    exact oriStep_keeps (dis g (by simp [hg]))
  rw [k5, k4, k3, ← k1, ← k2]
  simp only [newStep] at he
  split at he
  · rename_i hs
    rw [if_pos hs]
    obtain ⟨w, h1, h2⟩ := map_ok' he
    cases h2
    rw [get?_setF h1, if_pos rfl]
  · rename_i hs
    rw [if_neg hs]
    cases he; rfl

/-- The values are computed with the variables of the whole tree as it is then. -/
theorem evalAttrs_from {attrs} : ∀ {ks h vals h'}, evalAttrs ext root node attrs ks h = .ok (vals, h') →
    ∀ k v, (k, v) ∈ vals → ∃ a g vars, GoMap.get? attrs k = some a ∧ HeapStep h g ∧ Tree.variables g root = some vars ∧
      evalE ext vars a.expr = .ok v
  | [], h, vals, h', he => by cases he; intro k v hv; cases hv
  | k :: ks, h, vals, h', he => by
    simp only [evalAttrs] at he
    split at he
    · rename_i a vars ha hvars
      split at he
      · cases he
      rename_i cv hcv
      split at he
      · cases he
      rename_i h1 hadd
      split at he
      · cases he
      rename_i hr
      cases he
      intro x v hv
      rcases List.mem_cons.1 hv with hv | hv
      · cases hv
        exact ⟨a, h, vars, ha, HeapStep.refl _, hvars, hcv⟩
      · obtain ⟨a', g, vars', q1, q2, q3, q4⟩ := evalAttrs_from hr x v hv
        exact ⟨a', g, vars', q1, (addItem_step hadd).trans q2, q3, q4⟩
    · cases he

theorem flatList_mem {deep} {f : Fld} (hf : Decodes f) : ∀ {fs : List Fld}, f ∈ fs → f ∈ flatList env deep fs
  | g :: fs, h => by
    rw [flatList, List.mem_append]
    rcases List.mem_cons.1 h with rfl | h
    · left
      rw [flatOne, if_neg (by simp [hf.upper]), if_neg (by simp [hf.tag])]
      simp
    · exact Or.inr (flatList_mem hf h)

/-- A field that takes part is among the fields of its type. -/
theorem flat_mem {f : Fld} {fs : List Fld} (h : f ∈ fs) (hf : Decodes f) : f ∈ flat env n fs := by
  cases n <;> exact flatList_mem hf h

end Verif.HclS
